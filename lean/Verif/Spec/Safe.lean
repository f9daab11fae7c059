import Verif.Model.Run
import Verif.Spec.Order

/-! Specification of the calls that must return. -/
namespace Clingcon.Spec

/-- The call integrates facts, that is, it is made on the top level of the Boolean solver. -/
def topLevel : Op → Bool
  | .propagate cc _ => cc.level == 0
  | .check cc _ _ => cc.level == 0
  | .simplify cc _ _ _ => cc.level == 0
  | .updateBounds cc _ _ _ => cc.level == 0
  | _ => false

/-- Sequences of calls that return, the last of which may have found a conflict on the top level: then the problem is unsatisfiable
and the search ends (propagator.cc:404-463, 493-507). -/
inductive Proceed : List Op → World → World → Prop
  | nil (W) : Proceed [] W W
  | cons {op ops W W1 W2 r} : op.pre W → op.exec W = .ok (r, W1) → (r = false → topLevel op = false) → Proceed ops W1 W2 → Proceed (op :: ops) W W2

/-- The variables of a constraint. -/
def varsOf (c : Constr) : List Nat := c.watches.map (·.2)

/-- The assumptions on arguments and the Boolean solver under which calls of the functions for order literals, bounds, levels and
constraints must return:
* variables exist, and a constraint that is removed has been added and not been removed before;
* coefficients are different from zero;
* literals passed to `propagate` are true, what is assigned stays assigned, and the literal 1 is passed on the top level only
  (it is true from the beginning);
* there is a level that can be left by `undo`. -/
def mustReturn (W : World) : Op → Prop
  | .addVar _ _ => True
  | .literal _ v _ => v < W.vars.length
  | .updLiteral _ v _ _ => v < W.vars.length
  | .simple _ _ co v _ _ => v < W.vars.length ∧ co ≠ 0
  | .dom _ _ v _ => v < W.vars.length
  | .addConstraint c => ∀ v ∈ varsOf c, v < W.vars.length
  | .removeConstraint n => ∃ c, W.book.cs[n]? = some c ∧ c.alive = true
  | .removeConstraints _ => True
  | .updateMinimize _ _ _ => True
  | .propagate cc ls => EnvMono cc ∧ ∀ l ∈ ls, cc.isTrue W.log l = true ∧ (l = TRUE_LIT → cc.level = 0)
  | .undo => W.book.levels.length ≠ 1
  | .update _ => True
  | .fresh => True
  | .enable => True
  | .post _ => True
  | _ => False

/-- The calls made one after the other, if they proceed; used in examples. -/
def tryProceed : List Op → World → Option World
  | [], W => some W
  | op :: ops, W =>
    if op.preB W then (match op.exec W with | .ok p => if p.1 || !topLevel op then tryProceed ops p.2 else none | .error _ => none) else none

theorem tryProceed_proceed : ∀ {ops : List Op} {W W' : World}, tryProceed ops W = some W' → Proceed ops W W'
  | [], W, W', h => by injection h with h; subst h; exact .nil _
  | op :: ops, W, W', h => by
    unfold tryProceed at h
    split at h
    · rename_i hp
      split at h
      · rename_i p he
        split at h
        · rename_i hr
          exact .cons (r := p.1) (Op.preB_iff.mp hp) he (fun hf => by rw [hf] at hr; simpa using hr) (tryProceed_proceed h)
        · cases h
      · cases h
    · cases h

end Clingcon.Spec
