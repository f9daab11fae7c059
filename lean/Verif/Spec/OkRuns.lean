import Verif.Spec.Given
import Verif.Spec.Runs

/-! Sequences of calls none of which reports that the problem is unsatisfiable, and what is added by them. -/
namespace Clingcon.Spec
open Clingcon

/-- What is added is of the form the parser ensures, it is added on the top level, and adding it succeeds. Order literals are not removed, that is, the
sequence belongs to a single solve call. -/
def okOp (r : Bool) : Op → Prop
  | .simple cc _ co _ _ _ => r = true ∧ cc.level = 0 ∧ co ≠ 0
  | .dom cc l _ d => r = true ∧ cc.level = 0 ∧ l ≠ 0 ∧ Canonical d ∧ d ≠ []
  | .updateBounds cc _ _ _ => r = true ∧ cc.level = 0
  | .update _ => False
  | _ => True

/-- Sequences of calls as in `Fed` that add something successfully. What the Boolean solver assigns on the top level agrees with the
assignment. -/
inductive OkFed (β : Nat → Bool) : List Op → World → List Told → World → List Told → Prop
  | nil (W ts) : OkFed β [] W ts W ts
  | cons {op ops W W1 W2 ts ts2 r} : op.pre W → feedPre ts W op → (∀ cc, opEnv op = some cc → EnvSound cc β) → okOp r op →
      op.exec W = .ok (r, W1) → OkFed β ops W1 (toldAfter op W W1 r ts) W2 ts2 → OkFed β (op :: ops) W ts W2 ts2

/-- The number of variables after a call. -/
def varsAfter (n : Nat) : Op → Nat
  | .addVar _ _ => n + 1
  | _ => n

/-- What is added by a call holds; `n` is the number of variables. -/
def holdsOp (β : Nat → Bool) (σ : Nat → Int) (n : Nat) : Op → Prop
  | .addVar lo hi => lo ≤ σ n ∧ σ n ≤ hi
  | .simple _ l co v rhs strict => attached β l strict (co * σ v ≤ rhs)
  | .dom _ l v d => litTrue β l → σ v ∈ covered d
  | .updateBounds _ others _ _ => ∀ (v : Nat) (o : VarState), others[v]? = some o → o.lower ≤ σ v ∧ σ v ≤ o.upper
  | _ => True

/-- All domains of variables, domain constraints, constraints over one variable and bounds of other solvers that are added hold. -/
def holdsAll (β : Nat → Bool) (σ : Nat → Int) : Nat → List Op → Prop
  | _, [] => True
  | n, op :: ops => holdsOp β σ n op ∧ holdsAll β σ (varsAfter n op) ops

end Clingcon.Spec
