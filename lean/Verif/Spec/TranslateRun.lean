import Verif.Model.Run

/-! The calls that the translation of constraints consists of. -/
namespace Clingcon.Spec
open Clingcon

/-- The calls made by the translation with the given clause creator: order literals and other literals are introduced, clauses, weight
constraints, and weights of the objective are posted, variables and linear constraints are added, and constraints are removed. -/
def transOp (cc : CC) : Op → Prop
  | .literal c _ _ => c = cc
  | .addVar _ _ => True
  | .addConstraint c => ∃ rhs es, c = .sum TRUE_LIT rhs es
  | .removeConstraints _ => True
  | .fresh => True
  | .post _ => True
  | .enable => True
  | _ => False

end Clingcon.Spec
