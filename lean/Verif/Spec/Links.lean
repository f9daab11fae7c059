import Verif.Model.Solver

/-! Specification of the links between order literals: a table maps values to literals. -/
namespace Clingcon.Spec

/-- `l` is the literal of the largest value below `k` that has one, or the false literal if there is none. -/
def IsPrev (T : List (Int × Int)) (k l : Int) : Prop :=
  (∃ j, (j, l) ∈ T ∧ j < k ∧ ∀ j' l', (j', l') ∈ T → j' < k → j' ≤ j) ∨ (l = -1 ∧ ∀ j l', (j, l') ∈ T → ¬ j < k)

/-- `l` is the literal of the smallest value above `k` that has one, or the true literal if there is none. -/
def IsSucc (T : List (Int × Int)) (k l : Int) : Prop :=
  (∃ j, (j, l) ∈ T ∧ k < j ∧ ∀ j' l', (j', l') ∈ T → k < j' → j ≤ j') ∨ (l = 1 ∧ ∀ j l', (j, l') ∈ T → ¬ k < j)

/-- The literal belonging to the position `i` of the map from literals to order literals. -/
def litAt (i : Nat) (s : Bool) : Int := if s then (i : Int) + 1 else -((i : Int) + 1)

/-- There is an order literal for `v ≤ k`. -/
def HasLit (W : World) (v : Nat) (k : Int) : Prop := ∃ vs l, W.vars[v]? = some vs ∧ (k, l) ∈ vs.with

end Clingcon.Spec
