import Verif.Model.Check

/-! Sequences of calls of the functions of `Solver` (`libclingcon/clingcon/solver.hh:572-887`), as made by
the propagator (`libclingcon/src/propagator.cc:357-546`). -/
namespace Clingcon

/-- The calls of the clause creator by which constraints are translated (base.hh:338-360). -/
def SEv.posted : SEv → Bool
  | .clause _ => true
  | .weight .. => true
  | .minimize .. => true
  | _ => false

/-- A call of a function of `Solver`; the environment of a call (truth values, configuration, behaviour of
the clause sink) is part of it. -/
inductive Op where
  /-- solver.cc:407-416 `add_variable` -/
  | addVar (lo hi : Int)
  /-- solver.cc:458-480 `get_literal` -/
  | literal (cc : CC) (v : Var) (value : Int)
  /-- solver.cc:499-520 `update_literal` -/
  | updLiteral (cc : CC) (v : Var) (value : Int) (truth : Option Bool)
  /-- solver.cc:1070-1130 `add_simple` -/
  | simple (cc : CC) (clit : Lit) (co : Int) (v : Var) (rhs : Int) (strict : Bool)
  /-- solver.cc:1028-1068 `add_dom` -/
  | dom (cc : CC) (lit : Lit) (v : Var) (d : List (Int × Int))
  /-- solver.cc:535-546 `add_constraint` -/
  | addConstraint (c : Constr)
  /-- solver.cc:548-563 `remove_constraint` -/
  | removeConstraint (n : Nat)
  /-- solver.cc:197-220 `Level::remove_constraints` (at the end of `translate`) -/
  | removeConstraints (rem : Nat → Bool)
  /-- solver.cc:418-427 `update_minimize` -/
  | updateMinimize (n : Nat) (level : Nat) (bound : Int)
  /-- solver.cc:673-698 `propagate` -/
  | propagate (cc : CC) (changes : List Lit)
  /-- solver.cc:829-889 `check` -/
  | check (cc : CC) (checkState : Bool) (fuel : Nat)
  /-- solver.cc:643-669 `simplify` -/
  | simplify (cc : CC) (trail : List SEv → List Lit) (checkState : Bool) (fuel : Nat)
  /-- solver.cc:891-901 `undo` -/
  | undo
  /-- solver.cc:903-928 `decide` -/
  | decide (cc : CC) (fallback : Lit)
  /-- solver.cc:930-982 `check_full` -/
  | checkFull (cc : CC) (checkSol : Bool)
  /-- solver.cc:1002-1026 `update_bounds` -/
  | updateBounds (cc : CC) (others : List VarState) (checkState : Bool) (fuel : Nat)
  /-- solver.cc:984-1000 `update` -/
  | update (maxStatic : Nat)
  /-- `add_literal` during `translate` (constraints.cc:909, solver.cc:565-641) -/
  | fresh
  /-- `add_clause`, `add_weight_constraint` or `add_minimize` during `translate` (solver.cc:565-641); what is posted is recorded -/
  | post (e : SEv)
  /-- `enable_translate_minimize` during `translate` (constraints.cc:755, solver.hh:726) -/
  | enable

/-- The call; functions without a result or with another result give `true`. -/
def Op.exec : Op → SM Bool
  | .addVar lo hi => do discard (Clingcon.addVar lo hi); return true
  | .literal cc v x => do discard (getLiteral cc v x); return true
  | .updLiteral cc v x t => do discard (updateLiteral cc v x t); return true
  | .simple cc l co v r s => addSimple cc l co v r s
  | .dom cc l v d => addDom cc l v d
  | .addConstraint c => do discard (Clingcon.addConstraint c); return true
  | .removeConstraint n => do Clingcon.removeConstraint n; return true
  | .removeConstraints rem => do modify (fun W => { W with book := W.book.removeConstraints rem }); return true
  | .updateMinimize n level bound => do modify (fun W => { W with book := W.book.updateMinimize n level bound }); return true
  | .propagate cc ls => solverPropagate cc ls
  | .check cc b n => solverCheck cc b n
  | .simplify cc t b n => solverSimplify cc t b n
  | .undo => do solverUndo; return true
  | .decide cc l => do discard (solverDecide cc l); return true
  | .checkFull cc b => do solverCheckFull cc b; return true
  | .updateBounds cc o b n => Clingcon.updateBounds cc o b n
  | .update n => do solverUpdate n; return true
  | .fresh => do discard newLit; return true
  | .post e => do modify (fun W => { W with log := e :: W.log }); return true
  | .enable => do modify (fun W => { W with book.translateMinimize := true }); return true

/-- There are no pending changes of bounds. -/
def World.noChanges (W : World) : Prop := W.book.inLdiff = [] ∧ W.book.inUdiff = []

/-- There is no pending work: neither changes of bounds nor queued constraints. -/
def World.settled (W : World) : Prop := W.noChanges ∧ W.book.todo = []

/-- The number of the current level (0 on the top level). -/
def World.level (W : World) : Nat := match W.book.levels with | [] => 0 | l :: _ => l.level

/-- The conditions on calls that the propagator and clingo's propagation loop guarantee:
* variables and constraints are added, and constraints are removed, only on the top level
  (propagator.cc:357-463; the assertions at solver.cc:549 and 1003 are of this kind), and constraints only
  while no change of a bound is pending, that is, before propagation or after a successful check;
* a new level is only opened after the previous one has been propagated and checked without conflict,
  because clingo only makes a decision then (see `C20_check_settles`);
* `simplify` is only called on the top level (propagator.cc:404, 515);
* the domain of a new variable is not empty (clingcon.cc:559-578);
* the literal passed to `add_simple` is a literal of the Boolean solver, and literal 1 is true;
* constraints are translated on the top level (propagator.cc:400-435). -/
def Op.pre (W : World) : Op → Prop
  | .addVar lo hi => W.book.levels.length = 1 ∧ lo ≤ hi
  | .addConstraint _ => W.book.levels.length = 1 ∧ W.noChanges
  | .removeConstraint _ => W.book.levels.length = 1
  | .removeConstraints _ => W.book.levels.length = 1
  | .propagate cc _ => W.level < cc.level → W.settled
  | .simplify cc _ _ _ => cc.level = 0
  | .simple cc l _ _ _ _ => l ≠ 0 ∧ (l.natAbs : Int) < W.nextLit ∧ cc.value W.log TRUE_LIT = some true
  | .fresh => W.book.levels.length = 1
  | .enable => W.book.levels.length = 1
  | .post e => W.book.levels.length = 1 ∧ e.posted = true
  | _ => True

/-- The state before anything has been added (solver.cc:372-379). The first fresh literal is given. -/
def World.init (nextLit : Lit) : World := { nextLit := nextLit }

/-- A sequence of calls that all return. -/
inductive Run : List Op → World → World → Prop
  | nil (W) : Run [] W W
  | cons {op ops W W1 W2 r} : op.pre W → op.exec W = .ok (r, W1) → Run ops W1 W2 → Run (op :: ops) W W2

/-- The calls made one after the other, if all are permitted and return; used in examples. -/
def Op.preB (W : World) : Op → Bool
  | .addVar lo hi => W.book.levels.length == 1 && Decidable.decide (lo ≤ hi)
  | .addConstraint _ => W.book.levels.length == 1 && (W.book.inLdiff.isEmpty && W.book.inUdiff.isEmpty)
  | .removeConstraint _ => W.book.levels.length == 1
  | .removeConstraints _ => W.book.levels.length == 1
  | .propagate cc _ => !Decidable.decide (W.level < cc.level) || (W.book.inLdiff.isEmpty && W.book.inUdiff.isEmpty && W.book.todo.isEmpty)
  | .simplify cc _ _ _ => cc.level == 0
  | .simple cc l _ _ _ _ => l != 0 && (Decidable.decide ((l.natAbs : Int) < W.nextLit) && cc.value W.log TRUE_LIT == some true)
  | .fresh => W.book.levels.length == 1
  | .enable => W.book.levels.length == 1
  | .post e => W.book.levels.length == 1 && e.posted
  | _ => true

def tryRun : List Op → World → Option World
  | [], W => some W
  | op :: ops, W => if op.preB W then (match op.exec W with | .ok p => tryRun ops p.2 | .error _ => none) else none

theorem Op.preB_iff {W : World} {op : Op} : op.preB W = true ↔ op.pre W := by
  cases op <;> simp [Op.preB, Op.pre, World.noChanges, World.settled, Decidable.imp_iff_not_or]

theorem tryRun_run : ∀ {ops : List Op} {W W' : World}, tryRun ops W = some W' → Run ops W W'
  | [], W, W', h => by injection h with h; subst h; exact .nil _
  | op :: ops, W, W', h => by
    unfold tryRun at h
    split at h
    · rename_i hp
      split at h
      · rename_i p he
        exact .cons (r := p.1) (Op.preB_iff.mp hp) he (tryRun_run h)
      · cases h
    · cases h

/-- States reached by a sequence of calls; fresh literals differ from the true literal 1. -/
def Reach (W : World) : Prop := ∃ n ops, 1 < n ∧ Run ops (World.init n) W

end Clingcon
