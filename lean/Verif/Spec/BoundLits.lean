import Verif.Model.Solver

/-! Specification of how bounds of variables and order literals are related. -/
namespace Clingcon.Spec

/-- The current bounds of variables are justified by literals: if the lower bound exceeds the one on the top level, then the order
literal for the value before it exists and is false, and if the upper bound is less than the one on the top level, then the order
literal for it exists and is true. -/
def BoundLits (cc : CC) (W : World) : Prop :=
  ∀ (v : Nat) (vs : VarState), W.vars[v]? = some vs →
    (vs.minBound < vs.lower → ∃ l, (vs.lower - 1, l) ∈ vs.with ∧ cc.isFalse W.log l = true) ∧
    (vs.upper < vs.maxBound → ∃ l, (vs.upper, l) ∈ vs.with ∧ cc.isTrue W.log l = true)

end Clingcon.Spec
