import Verif.Model.Parsing

/-! Meaning of relation symbols. -/
namespace Clingcon.Spec
open Clingcon

/-- Meaning of a relation between integers. -/
def relHolds : Rel → Int → Int → Prop
  | .le, a, b => a ≤ b
  | .ge, a, b => a ≥ b
  | .lt, a, b => a < b
  | .gt, a, b => a > b
  | .eq, a, b => a = b
  | .ne, a, b => a ≠ b

end Clingcon.Spec
