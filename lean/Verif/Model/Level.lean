import Verif.Model.Solver

/-! Model of the bookkeeping for decision levels and constraint states: `Solver::Level`
(`libclingcon/src/solver.cc:34-284`), the functions `update`, `undo`, `attach` and `detach` of constraint
states (`libclingcon/src/constraints.cc`) and the functions of `Solver` adding and removing constraints. -/
namespace Clingcon

namespace CState

/-- constraints.cc:1219-1224 `mark_dirty_`. -/
def markDirty (c : CState) (idx : Nat) : CState :=
  if c.inDirty.getD idx false then c
  else { c with inDirty := c.inDirty.set idx true, dirty := c.dirty ++ [idx] }

/-- constraints.cc:1226-1238 `mark_todo_`. -/
def markTodoElem (c : CState) (sign : Int) (idx : Nat) : CState :=
  if sign > 0 then
    if c.inTodoLower.getD idx false then c
    else { c with inTodoLower := c.inTodoLower.set idx true, todoLower := c.todoLower ++ [idx] }
  else
    if c.inTodoUpper.getD idx false then c
    else { c with inTodoUpper := c.inTodoUpper.set idx true, todoUpper := c.todoUpper ++ [idx] }

/-- constraints.cc:1240-1250 `clear_todo_`. -/
def clearTodo (c : CState) : CState :=
  { c with
    inTodoLower := c.todoLower.foldl (fun v j => v.set j false) c.inTodoLower
    todoLower := []
    inTodoUpper := c.todoUpper.foldl (fun v j => v.set j false) c.inTodoUpper
    todoUpper := [] }

/-- `undo` of linear constraints and objectives (constraints.cc:85-92). -/
def undoSum (c : CState) (i diff : Int) : CState :=
  if i * diff > 0 then { c with lower := c.lower - i * diff } else { c with upper := c.upper - i * diff }

/-- `undo` (constraints.cc:85-92, 944-953, 1380-1383, 1826-1830). -/
def undo (c : CState) (i diff : Int) : CState :=
  match c.con with
  | .sum _ _ _ => c.undoSum i diff
  | .minimize _ _ => c.undoSum i diff
  | .distinct _ _ => (c.markDirty (i.natAbs - 1)).clearTodo
  | .nonlinear _ _ _ _ _ _ _ => c
  | .disjoint _ _ => { c with forceUpdate := true }

/-- `update` of linear constraints and objectives (constraints.cc:94-103). -/
def updateSum (c : CState) (i diff : Int) : Res (Bool × CState) :=
  if i * diff = 0 then .error .ub
  else if i * diff < 0 then .ok (false, { c with upper := c.upper + i * diff })
  else .ok (true, { c with lower := c.lower + i * diff })

/-- `update` (constraints.cc:94-103, 935-942, 1370-1377, 1820-1824). -/
def update (c : CState) (i diff : Int) : Res (Bool × CState) :=
  match c.con with
  | .sum _ _ _ => c.updateSum i diff
  | .minimize _ _ => c.updateSum i diff
  | .distinct _ _ => .ok (true, (c.markDirty (i.natAbs - 1)).markTodoElem i (i.natAbs - 1))
  | .nonlinear _ _ _ _ _ _ _ => .ok (true, c)
  | .disjoint _ _ => .ok (true, c)

end CState

namespace Book

/-- solver.cc:94-100 `Level::mark_inactive`. -/
def markInactive (b : Book) (level : Nat) (n : Nat) : Book :=
  match b.cs[n]? with
  | none => b
  | some c =>
    if c.removable && !c.markedInactive then
      { b with cs := b.cs.set n { c with inactive := level + 1 }, inactive := b.inactive ++ [n] }
    else b

/-- solver.cc:103-113 `Level::mark_todo`. -/
def markTodo (b : Book) (n : Nat) : Book :=
  match b.cs[n]? with
  | none => b
  | some c =>
    if c.markedInactive then b
    else if c.todo then b
    else { b with cs := b.cs.set n { c with todo := true }, todo := b.todo ++ [n] }

/-- The predicate passed to `remove_if` in `update_constraints_` (solver.cc:80-90) applied to all watches
in order; the result are the watches that are kept. -/
def updateWatches (level : Nat) (var : Var) (diff : Int) : List (Int × Nat) → Book → Res (List (Int × Nat) × Book)
  | [], b => .ok ([], b)
  | (i, n) :: ws, b =>
    match b.cs[n]? with
    | none => .error .ub
    | some c =>
      if c.removableAt level then
        updateWatches level var diff ws { b with removed := b.removed ++ [(var, i, n)] }
      else do
        let r ← c.update i diff
        let b := { b with cs := b.cs.set n r.2 }
        let b := if r.1 then b.markTodo n else b
        let p ← updateWatches level var diff ws b
        return ((i, n) :: p.1, p.2)

/-- solver.cc:77-92 `Level::update_constraints_`. -/
def updateConstraints (level : Nat) (var : Var) (diff : Int) (b : Book) : Res Book := do
  match b.watches[var]? with
  | none => .error .ub
  | some ws =>
    let p ← updateWatches level var diff ws b
    return { p.2 with watches := p.2.watches.set var p.1 }

/-- The loops at solver.cc:856-859 and 861-864 over the changed bounds. -/
def updateUppers (level : Nat) : List Var → Book → Res Book
  | [], b => .ok { b with inUdiff := [] }
  | v :: vs, b => do
    let b ← updateConstraints level v (b.udiff.getD v 0) b
    updateUppers level vs { b with udiff := b.udiff.set v 0 }

/-- solver.cc:861-865. -/
def updateLowers (level : Nat) : List Var → Book → Res Book
  | [], b => .ok { b with inLdiff := [] }
  | v :: vs, b => do
    let b ← updateConstraints level v (b.ldiff.getD v 0) b
    updateLowers level vs { b with ldiff := b.ldiff.set v 0 }

/-- The loops calling `undo` for the watches of a variable (solver.cc:129-131, 149-151). -/
def undoWatches (diff : Int) : List (Int × Nat) → List CState → List CState
  | [], cs => cs
  | (i, n) :: ws, cs => undoWatches diff ws (cs.modify n (fun c => c.undo i diff))

/-- The loops at solver.cc:158-163 and 174-177: activate constraints and clear marks. -/
def activate (cs : List CState) (ns : List Nat) : List CState := ns.foldl (fun cs n => cs.modify n (fun c => { c with inactive := 0 })) cs
/-- solver.cc:174-177. -/
def unmarkTodo (cs : List CState) (ns : List Nat) : List CState := ns.foldl (fun cs n => cs.modify n (fun c => { c with todo := false })) cs
/-- solver.cc:166-171: add removed watches. -/
def rewatch (ws : List (List (Int × Nat))) (rs : List (Var × Int × Nat)) : List (List (Int × Nat)) :=
  rs.foldl (fun ws r => ws.modify r.1 (fun l => l ++ [r.2])) ws

/-- The second part of `Level::undo` (solver.cc:156-178). -/
def undoRest (l : Lvl) (b : Book) : Book :=
  { b with
    cs := unmarkTodo (activate b.cs (b.inactive.drop l.inactiveOff)) b.todo
    inactive := b.inactive.take l.inactiveOff
    watches := rewatch b.watches (b.removed.drop l.removedOff)
    removed := b.removed.take l.removedOff
    todo := [] }

end Book

/-- The body of the loop at solver.cc:120-134. -/
def undoLowerVar (var : Var) : SM Unit := do
  let vs ← getVar var
  let vs' ← liftRes vs.popLower
  setVar var vs'
  modify (fun W => { W with
    book.cs := if vs.lower - vs'.lower - W.book.ldiff.getD var 0 ≠ 0 then
        Book.undoWatches (vs.lower - vs'.lower - W.book.ldiff.getD var 0) (W.book.watches.getD var []) W.book.cs
      else W.book.cs
    book.ldiff := W.book.ldiff.set var 0 })

/-- The body of the loop at solver.cc:140-154. -/
def undoUpperVar (var : Var) : SM Unit := do
  let vs ← getVar var
  let vs' ← liftRes vs.popUpper
  setVar var vs'
  modify (fun W => { W with
    book.cs := if vs.upper - vs'.upper - W.book.udiff.getD var 0 ≠ 0 then
        Book.undoWatches (vs.upper - vs'.upper - W.book.udiff.getD var 0) (W.book.watches.getD var []) W.book.cs
      else W.book.cs
    book.udiff := W.book.udiff.set var 0 })

/-- The loop at solver.cc:120-134. -/
def undoLowers : List Var → SM Unit
  | [] => return
  | v :: vs => do
    undoLowerVar v
    undoLowers vs

/-- The loop at solver.cc:140-154. -/
def undoUppers : List Var → SM Unit
  | [] => return
  | v :: vs => do
    undoUpperVar v
    undoUppers vs

/-- solver.cc:118-179 `Level::undo`. -/
def levelUndo (l : Lvl) : SM Unit := do
  let W ← get
  undoLowers (W.book.undoLower.drop l.undoLowerOff)
  modify (fun W => { W with book.undoLower := W.book.undoLower.take l.undoLowerOff, book.inLdiff := [] })
  let W ← get
  undoUppers (W.book.undoUpper.drop l.undoUpperOff)
  modify (fun W => { W with book.undoUpper := W.book.undoUpper.take l.undoUpperOff, book.inUdiff := [] })
  modify (fun W => { W with book := W.book.undoRest l })

/-- solver.cc:891-901 `undo`. -/
def solverUndo : SM Unit := do
  let l ← curLevel
  assertS (decide (l.level ≠ 0))
  levelUndo l
  modify (fun W => { W with book.levels := W.book.levels.tail })
  discard curLevel

/-! ### Adding and removing constraints -/

/-- The bounds of a linear term (constraints.cc:64-77, 290-303, 1254-1273): sums of `co * lower` and
`co * upper`, depending on the sign of the coefficients. -/
def sumBounds : CoVarVec → SM (Int × Int)
  | [] => return (0, 0)
  | (co, v) :: es => do
    let vs ← getVar v
    let p ← sumBounds es
    if co > 0 then return (vs.lower * co + p.1, vs.upper * co + p.2)
    else return (vs.upper * co + p.1, vs.lower * co + p.2)

/-- solver.cc:522-525 `add_var_watch`. -/
def addVarWatch (v : Var) (i : Int) (n : Nat) : SM Unit := do
  let W ← get
  assertS (decide (v < W.book.watches.length))
  modify (fun W => { W with book.watches := W.book.watches.modify v (fun l => l ++ [(i, n)]) })

/-- `add_var_watch` for a list of watches. -/
def addVarWatches (n : Nat) : List (Int × Var) → SM Unit
  | [] => return
  | (i, v) :: ws => do
    addVarWatch v i n
    addVarWatches n ws

/-- solver.cc:527-531 `remove_var_watch`. Erasing a watch that does not exist is undefined. -/
def removeVarWatch (v : Var) (i : Int) (n : Nat) : SM Unit := do
  let W ← get
  assertS (decide (v < W.book.watches.length))
  assertS ((W.book.watches.getD v []).contains (i, n))
  modify (fun W => { W with book.watches := W.book.watches.modify v (fun l => l.erase (i, n)) })

/-- `remove_var_watch` for a list of watches. -/
def removeVarWatches (n : Nat) : List (Int × Var) → SM Unit
  | [] => return
  | (i, v) :: ws => do
    removeVarWatch v i n
    removeVarWatches n ws

/-- The watches of the elements of a distinct constraint (constraints.cc:817-829). -/
def distinctWatches : Nat → List (CoVarVec × Int) → List (Int × Var)
  | _, [] => []
  | idx, (e, _) :: es => e.map (fun p => (if p.1 > 0 then (idx : Int) + 1 else -(idx : Int) - 1, p.2)) ++ distinctWatches (idx + 1) es

/-- The watches added by `attach` (constraints.cc:64-77, 817-829, 1333-1339, 1799-1803). -/
def Constr.watches : Constr → List (Int × Var)
  | .sum _ _ es => es
  | .minimize _ es => es
  | .distinct _ es => distinctWatches 0 es
  | .disjoint _ es => es.map (fun e => (1, e.2))
  | .nonlinear _ _ x y cb z _ => [(0, x), (1, y)] ++ (if cb ≠ 0 then [(2, z)] else [])

/-- Insertion into a set of pairs sorted in increasing order (`std::set::emplace`). -/
def setInsert (p : Int × Nat) : List (Int × Nat) → List (Int × Nat)
  | [] => [p]
  | q :: s => if p = q then q :: s else if p.1 < q.1 ∨ (p.1 = q.1 ∧ p.2 < q.2) then p :: q :: s else q :: setInsert p s

/-- constraints.cc:817-829: the initial bounds of the elements of a distinct constraint. -/
def distinctInit : Nat → List (CoVarVec × Int) → CState → SM CState
  | _, [], c => return c
  | idx, (e, fixed) :: es, c => do
    let p ← sumBounds e
    distinctInit (idx + 1) es { c with
      assigned := c.assigned ++ [(p.1 + fixed, p.2 + fixed)]
      lowerSet := setInsert (p.1 + fixed, idx) c.lowerSet
      upperSet := setInsert (p.2 + fixed, idx) c.upperSet }

/-- `create_state` (constraints.cc:1897-1907, 1935-1937, 1950-1952) followed by the part of `attach` that
does not add watches. -/
def initState : Constr → SM CState
  | .sum l r es => do
    let p ← sumBounds es
    return { con := .sum l r es, lower := p.1, upper := p.2 }
  | .minimize a es => do
    let p ← sumBounds es
    return { con := .minimize a es, lower := p.1, upper := p.2 }
  | .distinct l es => distinctInit 0 es
      { con := .distinct l es
        inDirty := List.replicate es.length false
        inTodoLower := List.replicate es.length false
        inTodoUpper := List.replicate es.length false }
  | .disjoint l es => return { con := .disjoint l es, intervals := es.map (fun e => { var := e.2, weight := e.1 }) }
  | .nonlinear l ca x y cb z r => return { con := .nonlinear l ca x y cb z r }

/-- solver.cc:535-546 `add_constraint` for a constraint that has not been added before; the result is
the number of the constraint state. -/
def addConstraint (c : Constr) : SM Nat := do
  let cs ← initState c
  let W ← get
  let n := W.book.cs.length
  modify (fun W => { W with book.cs := W.book.cs ++ [cs] })
  addVarWatches n c.watches
  modify (fun W => { W with book := W.book.markTodo n })
  return n

/-- solver.cc:182-194 `Level::remove_constraint`. -/
def Book.removeMarks (b : Book) (n : Nat) : Book :=
  match b.cs[n]? with
  | none => b
  | some c => { b with
      cs := b.cs.set n { c with alive := false, inactive := 0, todo := false }
      inactive := if c.markedInactive then b.inactive.erase n else b.inactive
      todo := if c.todo then b.todo.erase n else b.todo }

/-- solver.cc:548-563 `remove_constraint`. -/
def removeConstraint (n : Nat) : SM Unit := do
  let W ← get
  match W.book.cs[n]? with
  | none => SM.ub
  | some c => do
    removeVarWatches n c.con.watches
    let l ← curLevel
    assertS (l.level == 0)
    modify (fun W => { W with book := W.book.removeMarks n })

/-- solver.cc:197-220 `Level::remove_constraints`: all marks of constraints in the lists are cleared. -/
def Book.removeConstraints (b : Book) (rem : Nat → Bool) : Book :=
  { b with
    watches := b.watches.map (fun ws => ws.filter (fun w => !rem w.2))
    cs := (Book.unmarkTodo (Book.activate b.cs b.inactive) b.todo).zipIdx.map (fun p => if rem p.2 then { p.1 with alive := false } else p.1)
    inactive := b.inactive.filter (fun n => !rem n)
    todo := b.todo.filter (fun n => !rem n) }

/-- solver.cc:418-427 `update_minimize`. -/
def Book.updateMinimize (b : Book) (n : Nat) (level : Nat) (bound : Int) : Book :=
  if (match b.minimizeBound with | none => true | some mb => decide (bound < mb)) then
    { b with minimizeBound := some bound, minimizeLevel := level }.markTodo n
  else if level < b.minimizeLevel then { b with minimizeLevel := level }.markTodo n
  else b

end Clingcon
