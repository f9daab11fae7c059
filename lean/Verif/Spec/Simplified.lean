import Verif.Spec.Given
import Verif.Spec.Bounds

/-! What `simplify` does on the top level. -/
namespace Clingcon.Spec
open Clingcon

/-- The trail of the Boolean solver only grows while calls are made, and only consists of literals that exist: the ones below `m` and the ones
introduced since. -/
structure Trailing (m : Int) (trail : List SEv → List Lit) : Prop where
  grows : ∀ e log, trail log <+: trail (e :: log)
  known : ∀ log, ∀ l ∈ trail log, l ≠ 0 ∧ ((l.natAbs : Int) < m ∨ SEv.lit l.natAbs ∈ log)

/-- The calls of `simplify` in case of success: the Boolean solver propagates, and as long as there is something to do, the literals listed are
passed to `propagate`, and `check` is called. -/
inductive Rounds (cc : CC) (ck : Bool) (fuel : Nat) : List (List Lit) → World → World → Prop
  | done (W) : cc.accept (.propagate :: W.log) = true → Rounds cc ck fuel [] W { W with log := .propagate :: W.log }
  | round {ls lss W W1 n W2 W3} : cc.accept (.propagate :: W.log) = true →
      (Op.propagate cc ls).exec { W with log := .propagate :: W.log } = .ok (true, W1) →
      (Op.check cc ck fuel).exec { W1 with book.trailOffset := n } = .ok (true, W2) → Rounds cc ck fuel lss W2 W3 → Rounds cc ck fuel (ls :: lss) W W3

/-- Exactly the literals listed have been passed. -/
def just (ls : List Lit) : Told := ⟨(· ∈ ls), (· ∈ ls)⟩

/-- Order literals that are listed are reflected by the bounds of their variables. Order literals that equal the true literal are pending facts. -/
def Reflected (ls : List Lit) (W : World) : Prop :=
  ∀ v k l, OrdLit W v k l → l.natAbs ≠ 1 → (l ∈ ls → upperOf W v ≤ k) ∧ (-l ∈ ls → k < lowerOf W v)

end Clingcon.Spec
