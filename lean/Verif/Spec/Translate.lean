import Verif.Spec.Order

/-! What is posted to the Boolean solver when constraints are translated. -/
namespace Clingcon.Spec
open Clingcon

/-- The number of clauses posted. -/
def clauseCount : List SEv → Nat
  | [] => 0
  | .clause _ :: log => clauseCount log + 1
  | _ :: log => clauseCount log

/-- The value of the objective function given to the Boolean solver: the sum of the weights of the literals
that are true. -/
def minimizeCost (β : Nat → Bool) : List SEv → Int
  | [] => 0
  | .minimize l w :: log => weightSum β [(l, w)] + minimizeCost β log
  | _ :: log => minimizeCost β log

end Clingcon.Spec
