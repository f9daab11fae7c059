import Verif.Model.Run

/-! Sequences of calls that add and remove constraints properly. -/
namespace Clingcon.Spec
open Clingcon

/-- The constraint with the given number has been added and not been removed. -/
def exists_ (W : World) (n : Nat) : Prop := ∃ c, W.book.cs[n]? = some c ∧ c.alive = true

/-- Calls that refer to a constraint refer to one that exists. If `d` is true, no single constraint is removed. -/
def properCall (d : Bool) (W : World) : Op → Prop
  | .removeConstraint n => exists_ W n ∧ d = false
  | .updateMinimize n _ _ => exists_ W n
  | _ => True

/-- Whether the call removes the constraints that have been translated. -/
def removesMarked : Op → Bool
  | .removeConstraints _ => true
  | _ => false

/-- Sequences of calls that refer to existing constraints, and where no single constraint is removed while the queue
holds constraints that were queued before the translated constraints were removed. The flags are true (at the start and
at the end) if translated constraints have been removed since the queue was empty the last time. -/
inductive ProperRun : Bool → List Op → World → Bool → World → Prop
  | nil (d W) : ProperRun d [] W d W
  | cons {d d' op ops W W1 W2 r} : op.pre W → properCall d W op → op.exec W = .ok (r, W1) →
      ProperRun (!W1.book.todo.isEmpty && (d || removesMarked op)) ops W1 d' W2 → ProperRun d (op :: ops) W d' W2

end Clingcon.Spec
