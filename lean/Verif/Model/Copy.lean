import Verif.Model.Run

/-! Copying the state of a solver to the solver of another thread. -/
namespace Clingcon

/-- `solver.constraint_state(cs->constraint())` as used in solver.cc:227-276: the state of the copied constraint that
belongs to a constraint state of the master. Constraint states are referred to by their numbers, which are the same for
the copies. It is undefined behaviour to access a state that has been deleted. -/
def stateOf (master : World) (n : Nat) : Res Nat :=
  match master.book.cs[n]? with
  | some c => if c.alive then .ok n else .error .ub
  | none => .error .ub

/-- solver.cc:244-248 and 271-275: the lists of inactive and of queued constraints. -/
def copyList (master : World) : List Nat → Res (List Nat)
  | [] => .ok []
  | n :: ns => do return (← stateOf master n) :: (← copyList master ns)

/-- solver.cc:253-255: the watches of one variable. -/
def copyWatches (master : World) : List (Int × Nat) → Res (List (Int × Nat))
  | [] => .ok []
  | (i, n) :: ws => do return (i, ← stateOf master n) :: (← copyWatches master ws)

/-- solver.cc:251-256: the watches of all variables. -/
def copyVarWatches (master : World) : List (List (Int × Nat)) → Res (List (List (Int × Nat)))
  | [] => .ok []
  | ws :: wss => do return (← copyWatches master ws) :: (← copyVarWatches master wss)

/-- solver.cc:258-264: the removed watches. -/
def copyRemoved (master : World) : List (Nat × Int × Nat) → Res (List (Nat × Int × Nat))
  | [] => .ok []
  | (v, i, n) :: rs => do return (v, i, ← stateOf master n) :: (← copyRemoved master rs)

/-- `AbstractConstraintState::copy` (constraints.cc:44-46 with 454-458 and 771-775, 929-931 with 1290-1296, 1361-1364,
1816-1818 with 1882-1886). -/
def CState.copy (x : CState) : CState :=
  match x.con with
  | .sum _ _ _ => { con := x.con, alive := x.alive, lower := x.lower, upper := x.upper, inactive := x.inactive, todo := x.todo }
  | .minimize _ _ => { con := x.con, alive := x.alive, lower := x.lower, upper := x.upper, inactive := x.inactive, todo := x.todo }
  | .distinct _ _ => { con := x.con, alive := x.alive, assigned := x.assigned, dirty := x.dirty, todoUpper := x.todoUpper, todoLower := x.todoLower, inDirty := x.inDirty, inTodoUpper := x.inTodoUpper, inTodoLower := x.inTodoLower, lowerSet := x.lowerSet, upperSet := x.upperSet, inactive := x.inactive, todo := x.todo }
  | .nonlinear _ _ _ _ _ _ _ => { con := x.con, alive := x.alive, inactive := x.inactive, todo := x.todo }
  | .disjoint _ _ => { con := x.con, alive := x.alive, intervals := x.intervals, inactive := x.inactive, forceUpdate := x.forceUpdate, todo := x.todo }

/-- solver.cc:381-405 `copy_state` with solver.cc:227-276 `Level::copy_state`. The flag `translate_minimize_` and what
belongs to the Boolean solver are not copied. Constraints that have been removed are kept as entries that do not exist,
in order not to change the numbers of the others. -/
def copyState (target master : World) : Res World :=
  match target.book.levels, master.book.levels with
  | [l], [m] => do
    let inactive ← copyList master master.book.inactive
    let watches ← copyVarWatches master master.book.watches
    let removed ← copyRemoved master master.book.removed
    let todo ← copyList master master.book.todo
    return { target with
      vars := master.vars
      litmap := master.litmap
      factmap := master.factmap
      book := { target.book with
        splitLast := master.book.splitLast
        trailOffset := master.book.trailOffset
        minimizeLevel := master.book.minimizeLevel
        minimizeBound := master.book.minimizeBound
        cs := master.book.cs.map CState.copy
        levels := [{ l with undoLowerOff := m.undoLowerOff, undoUpperOff := m.undoUpperOff, inactiveOff := m.inactiveOff, removedOff := m.removedOff }]
        undoLower := master.book.undoLower
        ldiff := master.book.ldiff
        inLdiff := master.book.inLdiff
        undoUpper := master.book.undoUpper
        udiff := master.book.udiff
        inUdiff := master.book.inUdiff
        inactive := inactive
        watches := watches
        removed := removed
        todo := todo } }
  | _, _ => .error .ub

end Clingcon
