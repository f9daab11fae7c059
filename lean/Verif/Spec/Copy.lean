import Verif.Spec.Queue

/-! Equal states of solvers. -/
namespace Clingcon.Spec
open Clingcon

/-- Equal states of a constraint: the constraint, its marks, and the members that constraints of its kind have. -/
def sameState (c c' : CState) : Prop :=
  c'.con = c.con ∧ c'.alive = c.alive ∧ c'.todo = c.todo ∧ c'.inactive = c.inactive ∧
  match c.con with
  | .sum _ _ _ => c'.lower = c.lower ∧ c'.upper = c.upper
  | .minimize _ _ => c'.lower = c.lower ∧ c'.upper = c.upper
  | .distinct _ _ => c'.assigned = c.assigned ∧ c'.dirty = c.dirty ∧ c'.inDirty = c.inDirty ∧ c'.todoLower = c.todoLower ∧ c'.todoUpper = c.todoUpper ∧
      c'.inTodoLower = c.inTodoLower ∧ c'.inTodoUpper = c.inTodoUpper ∧ c'.lowerSet = c.lowerSet ∧ c'.upperSet = c.upperSet
  | .nonlinear _ _ _ _ _ _ _ => True
  | .disjoint _ _ => c'.intervals = c.intervals ∧ c'.forceUpdate = c.forceUpdate

/-- Equal states of two solvers. -/
structure SameSolver (W W' : World) : Prop where
  /-- bounds, stacks of bounds and order literals of the variables -/
  vars : W'.vars = W.vars
  /-- from literals to variables and values -/
  litmap : W'.litmap = W.litmap
  factmap : W'.factmap = W.factmap
  /-- constraints -/
  count : W'.book.cs.length = W.book.cs.length
  states : ∀ (n : Nat) (c c' : CState), W.book.cs[n]? = some c → W'.book.cs[n]? = some c' → sameState c c'
  /-- watches -/
  watches : W'.book.watches = W.book.watches
  removed : W'.book.removed = W.book.removed
  /-- pending work -/
  todo : W'.book.todo = W.book.todo
  inLdiff : W'.book.inLdiff = W.book.inLdiff
  inUdiff : W'.book.inUdiff = W.book.inUdiff
  ldiff : W'.book.ldiff = W.book.ldiff
  udiff : W'.book.udiff = W.book.udiff
  /-- what has to be undone -/
  undoLower : W'.book.undoLower = W.book.undoLower
  undoUpper : W'.book.undoUpper = W.book.undoUpper
  inactive : W'.book.inactive = W.book.inactive
  levels : W'.book.levels = W.book.levels
  /-- counters -/
  splitLast : W'.book.splitLast = W.book.splitLast
  trailOffset : W'.book.trailOffset = W.book.trailOffset
  minimizeBound : W'.book.minimizeBound = W.book.minimizeBound
  minimizeLevel : W'.book.minimizeLevel = W.book.minimizeLevel

/-- As `properCall`, and single constraints that are removed are objectives; this is the only way in which the
propagator removes a single constraint (propagator.cc:590-607). -/
def masterCall (d : Bool) (W : World) (op : Op) : Prop :=
  properCall d W op ∧ ∀ n, op = .removeConstraint n → ∃ c a es, W.book.cs[n]? = some c ∧ c.con = .minimize a es

/-- Sequences of such calls, see `ProperRun`. -/
inductive MasterRun : Bool → List Op → World → Bool → World → Prop
  | nil (d W) : MasterRun d [] W d W
  | cons {d d' op ops W W1 W2 r} : op.pre W → masterCall d W op → op.exec W = .ok (r, W1) →
      MasterRun (!W1.book.todo.isEmpty && (d || removesMarked op)) ops W1 d' W2 → MasterRun d (op :: ops) W d' W2

end Clingcon.Spec
