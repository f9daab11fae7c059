import Verif.Model.Builder

/-! Notions about the table of symbols of a builder. -/
namespace Clingcon

/-- Well-formed symbol tables: symbols and variables are in one to one correspondence, and indices of
further variables are unused. -/
structure BState.WF (s : BState) : Prop where
  keys : (s.symMap.map Prod.fst).Nodup
  vals : (s.symMap.map Prod.snd).Nodup
  bound : ∀ p ∈ s.symMap, p.2 < s.numVars

/-- The assignment of values to variables agrees with the assignment to symbols. -/
def Agree (σ : Sym → Int) (τ : Var → Int) (s : BState) : Prop := ∀ p ∈ s.symMap, τ p.2 = σ p.1

end Clingcon
