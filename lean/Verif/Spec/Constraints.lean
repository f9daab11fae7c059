import Verif.Model.Solver
import Verif.Spec.Events

/-! Meaning of the constraints of the solver. -/
namespace Clingcon.Spec
open Clingcon

/-- The constraint holds for an assignment; `bound` is the current bound of the objective function. -/
def conHolds (σ : Nat → Int) (bound : Option Int) : Constr → Prop
  | .sum _ rhs es => wsum σ es ≤ rhs
  | .minimize _ es => ∀ b, bound = some b → wsum σ es ≤ b
  | .distinct _ es => pairwiseNe (es.map (fun e => wsum σ e.1 + e.2))
  | .disjoint _ es => pairwiseDisjoint (es.map (fun e => (σ e.2, e.1)))
  | .nonlinear _ ca x y cb z rhs => ca * (σ x * σ y) + cb * σ z ≤ rhs

/-- The least value of `co * x * y` for `x` and `y` between bounds: it is attained at the bounds. -/
def productLeast (co lx ux ly uy : Int) : Int := min (min (co * lx * ly) (co * lx * uy)) (min (co * ux * ly) (co * ux * uy))

end Clingcon.Spec
