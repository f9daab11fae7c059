import Verif.Model.Run

/-! Specification of the calls made before the first search. -/
namespace Clingcon.Spec
open Clingcon

/-- Calls before constraints are translated for the first time: nothing is undone, no call fails, and constraints are not removed after a translation. -/
inductive Straight : List Op → World → World → Prop
  | nil (W) : Straight [] W W
  | cons {op ops W W1 W2} : op.pre W → op ≠ .undo → (∀ rem, op ≠ .removeConstraints rem) → op.exec W = .ok (true, W1) → Straight ops W1 W2 → Straight (op :: ops) W W2

end Clingcon.Spec
