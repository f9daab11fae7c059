import Verif.Model.Run
import Verif.Spec.Order
import Verif.Spec.Constraints
import Verif.Spec.Relations
import Verif.Spec.IntervalSet
import Verif.Spec.BoundLits

/-! Sequences of calls that do not exclude a given assignment. -/
namespace Clingcon.Spec
open Clingcon

/-- The constraint does not exclude the assignment, and it is of a form for which propagation is sound. The exceptions
are the ones found in C37: nonlinear constraints have to hold even if their literal is false and need a
nonnegative second coefficient. Sizes of intervals of disjoint constraints are positive, which the parser ensures. -/
def admits (β : Nat → Bool) (σ : Nat → Int) (bound : Option Int) : Constr → Prop
  | .sum l rhs es => l ≠ 0 ∧ (es.map (·.2)).Nodup ∧ (litTrue β l → conHolds σ bound (.sum l rhs es))
  | .minimize a es => (es.map (·.2)).Nodup ∧ conHolds σ bound (.minimize a es)
  | .distinct l es => l ≠ 0 ∧ (litTrue β l → conHolds σ bound (.distinct l es))
  | .nonlinear l ca x y cb z rhs => conHolds σ bound (.nonlinear l ca x y cb z rhs) ∧ 0 ≤ cb
  | .disjoint l es => l ≠ 0 ∧ (∀ e ∈ es, 1 ≤ e.1) ∧ (litTrue β l → conHolds σ bound (.disjoint l es))

/-- The environment of a call. -/
def opEnv : Op → Option CC
  | .literal cc _ _ => some cc
  | .updLiteral cc _ _ _ => some cc
  | .simple cc _ _ _ _ _ => some cc
  | .dom cc _ _ _ => some cc
  | .propagate cc _ => some cc
  | .check cc _ _ => some cc
  | .simplify cc _ _ _ => some cc
  | .decide cc _ => some cc
  | .checkFull cc _ => some cc
  | .updateBounds cc _ _ _ => some cc
  | _ => none

/-- The Boolean solver agrees with the assignment during the call: what it assigns on the top level is true, what it has
assigned stays assigned during the call, and literals of distinct and disjoint constraints that become fixed during the call are true
(see C31 and C35 for the reason). If there are disjoint constraints, then the bounds are justified by literals when the call starts, and the
Boolean solver is not on the top level if the solver is not (see `C57_fed_partial` for sequences of calls that ensure this). -/
structure EnvAgrees (cc : CC) (β : Nat → Bool) (W : World) : Prop where
  sound : EnvSound cc β
  mono : EnvMono cc
  fixed : ∀ c ∈ W.book.cs, ∀ l, (∃ es, c.con = .distinct l es) ∨ (∃ es, c.con = .disjoint l es) → ∀ log, AllHold β log → cc.isFixed log l = true → litTrue β l
  just : (∃ c ∈ W.book.cs, ∃ l es, c.con = .disjoint l es) → BoundLits cc W ∧ (1 < W.book.levels.length → cc.level ≠ 0)

/-- What is added by the call does not exclude the assignment:
* the value of a new variable lies in its domain,
* domains, constraints, objective bounds, and bounds taken from other solvers admit the assignment,
* literals that are made facts are true,
* literals are not 0,
* what is posted to the Boolean solver holds. -/
def admitted (β : Nat → Bool) (σ : Nat → Int) (W : World) : Op → Prop
  | .addVar lo hi => lo ≤ σ W.vars.length ∧ σ W.vars.length ≤ hi
  | .updLiteral _ v x t => ∀ b, t = some b → (b = true ↔ σ v ≤ x)
  | .simple cc l co v rhs strict => cc.level = 0 ∧ co ≠ 0 ∧ attached β l strict (co * σ v ≤ rhs)
  | .dom cc l v d => cc.level = 0 ∧ l ≠ 0 ∧ Canonical d ∧ (litTrue β l → σ v ∈ covered d)
  | .addConstraint c => admits β σ W.book.minimizeBound c
  | .updateMinimize _ _ bound => ∀ c ∈ W.book.cs, ∀ a es, c.con = .minimize a es → conHolds σ (some bound) (.minimize a es)
  | .propagate _ ls => ∀ l ∈ ls, l ≠ 0
  | .simplify _ trail _ _ => ∀ log, ∀ l ∈ trail log, l ≠ 0
  | .updateBounds _ others _ _ => ∀ (v : Nat) (o : VarState), others[v]? = some o → o.lower ≤ σ v ∧ σ v ≤ o.upper
  | .post e => evHolds β e
  | _ => True

/-- A sequence of calls that all return and none of which excludes the assignment. -/
inductive AdmRun (β : Nat → Bool) (σ : Nat → Int) : List Op → World → World → Prop
  | nil (W) : AdmRun β σ [] W W
  | cons {op ops W W1 W2 r} : op.pre W → (∀ cc, opEnv op = some cc → EnvAgrees cc β W) → admitted β σ W op →
      op.exec W = .ok (r, W1) → AdmRun β σ ops W1 W2 → AdmRun β σ (op :: ops) W W2

/-- Calls other than adding constraints. -/
def noConstraint : Op → Prop
  | .addConstraint _ => False
  | _ => True

/-- A sequence of calls without constraints that do not exclude the assignment. -/
inductive OrderRun (β : Nat → Bool) (σ : Nat → Int) : List Op → World → World → Prop
  | nil (W) : OrderRun β σ [] W W
  | cons {op ops W W1 W2 r} : noConstraint op → op.pre W → (∀ cc, opEnv op = some cc → EnvSound cc β ∧ EnvMono cc) → admitted β σ W op →
      op.exec W = .ok (r, W1) → OrderRun β σ ops W1 W2 → OrderRun β σ (op :: ops) W W2

end Clingcon.Spec
