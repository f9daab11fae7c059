import Mathlib.Data.Set.Basic

/-! Specification of sets of integers given by half open intervals. -/
namespace Clingcon.Spec

/-- The integers covered by a list of half open intervals. -/
def covered (l : List (Int × Int)) : Set Int := {v | ∃ p ∈ l, p.1 ≤ v ∧ v < p.2}

/-- Canonical form: non-empty intervals in increasing order that neither overlap nor touch. -/
def Canonical (l : List (Int × Int)) : Prop :=
  (∀ p ∈ l, p.1 < p.2) ∧ l.Pairwise (fun p q => p.2 < q.1)

end Clingcon.Spec
