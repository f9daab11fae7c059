import Verif.Spec.Given
import Verif.Spec.Runs

/-! Sequences of calls that do not exclude a given assignment, together with the literals passed to `propagate`. -/
namespace Clingcon.Spec
open Clingcon

/-- The Boolean solver agrees with the assignment during the call: as in `EnvAgrees`, but instead of asking that bounds are justified by
literals, the literals that have been passed to `propagate` on the current level and the ones below it are true. -/
structure FedAgrees (cc : CC) (β : Nat → Bool) (W : World) (ts : List Told) : Prop where
  sound : EnvSound cc β
  mono : EnvMono cc
  fixed : ∀ c ∈ W.book.cs, ∀ l, (∃ es, c.con = .distinct l es) ∨ (∃ es, c.con = .disjoint l es) → ∀ log, AllHold β log → cc.isFixed log l = true → litTrue β l
  told : ∀ t, ts.head? = some t → ∀ l, t.tried l → cc.isTrue W.log l = true

/-- A sequence of calls as in `Fed` none of which excludes the assignment. -/
inductive AdmFed (β : Nat → Bool) (σ : Nat → Int) : List Op → World → List Told → World → List Told → Prop
  | nil (W ts) : AdmFed β σ [] W ts W ts
  | cons {op ops W W1 W2 ts ts2 r} : op.pre W → feedPre ts W op → (∀ cc, opEnv op = some cc → FedAgrees cc β W ts) → admitted β σ W op →
      op.exec W = .ok (r, W1) → AdmFed β σ ops W1 (toldAfter op W W1 r ts) W2 ts2 → AdmFed β σ (op :: ops) W ts W2 ts2

end Clingcon.Spec
