import Verif.Spec.Given
import Verif.Spec.Bounds

/-! What is known about order literals when the Boolean solver asks for a decision. -/
namespace Clingcon.Spec
open Clingcon

/-- The literal is not assigned. -/
def Free (cc : CC) (W : World) (l : Lit) : Prop := cc.value W.log l = none

/-- Order literals and bounds of variables agree: exactly the literals for values not below the upper bound are true, and exactly the ones for
values below the lower bound are false. -/
def LitsAgree (cc : CC) (W : World) : Prop :=
  ∀ v k l, OrdLit W v k l → (cc.isTrue W.log l = true ↔ upperOf W v ≤ k) ∧ (cc.isFalse W.log l = true ↔ k < lowerOf W v)

/-- The literal stands for the smallest value among the free order literals of the variable. -/
def LeastFree (cc : CC) (W : World) (v : Nat) (l : Lit) : Prop :=
  ∃ k, OrdLit W v k l ∧ Free cc W l ∧ ∀ k' l', OrdLit W v k' l' → Free cc W l' → k ≤ k'

/-- The literal stands for the largest value among the free order literals of the variable. -/
def GreatestFree (cc : CC) (W : World) (v : Nat) (l : Lit) : Prop :=
  ∃ k, OrdLit W v k l ∧ Free cc W l ∧ ∀ k' l', OrdLit W v k' l' → Free cc W l' → k' ≤ k

end Clingcon.Spec
