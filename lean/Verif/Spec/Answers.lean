import Verif.Spec.Handed
import Verif.Spec.OkRuns
import Verif.Spec.FedRuns

/-! What happens with the calls made for a program. -/
namespace Clingcon.Spec
open Clingcon

/-- The call of the constraint builder has been passed on to the solver (propagator.cc:372-388). Clauses go to the Boolean solver. -/
def passedOn (ops : List Op) : PEv → Prop
  | .clause _ => True
  | .simple l co v r s => ∃ cc, Op.simple cc l co v r s ∈ ops
  | .dom l v d => ∃ cc, Op.dom cc l v d ∈ ops
  | .con c => Op.addConstraint c ∈ ops

/-- No constraint is removed. -/
def NoRemoval (ops : List Op) : Prop := ∀ op ∈ ops, (∀ n, op ≠ .removeConstraint n) ∧ ∀ r, op ≠ .removeConstraints r

/-- The call only adds what the constraint builder has passed on. All other conditions are the ones of `admitted`: values of variables are
within the initial bounds, objective bounds and bounds of other solvers admit the assignment, and so on. For constraints over products see C37. -/
def fromPosts (new : List PEv) (β : Nat → Bool) (σ : Nat → Int) (W : World) : Op → Prop
  | .simple cc l co v rhs strict => cc.level = 0 ∧ PEv.simple l co v rhs strict ∈ new
  | .dom cc l v d => cc.level = 0 ∧ PEv.dom l v d ∈ new
  | .addConstraint c => PEv.con c ∈ new ∧ ∀ l ca x y cb z rhs, c = .nonlinear l ca x y cb z rhs → conHolds σ none c ∧ 0 ≤ cb
  | op => admitted β σ W op

/-- Sequences of calls as in `AdmFed` that only add what the constraint builder has passed on. -/
inductive PostFed (new : List PEv) (β : Nat → Bool) (σ : Nat → Int) : List Op → World → List Told → World → List Told → Prop
  | nil (W ts) : PostFed new β σ [] W ts W ts
  | cons {op ops W W1 W2 ts ts2 r} : op.pre W → feedPre ts W op → (∀ cc, opEnv op = some cc → FedAgrees cc β W ts) → fromPosts new β σ W op →
      op.exec W = .ok (r, W1) → PostFed new β σ ops W1 (toldAfter op W W1 r ts) W2 ts2 → PostFed new β σ (op :: ops) W ts W2 ts2

end Clingcon.Spec
