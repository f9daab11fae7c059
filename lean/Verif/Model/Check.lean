import Verif.Model.Propagate
import Verif.Model.IntervalSet

/-! Model of `propagate`, `check`, `simplify`, `check_full`, `decide`, `update_bounds` and `copy_state` of
`Solver` (`libclingcon/src/solver.cc`). -/
namespace Clingcon

/-- solver.cc:694-696: the constraints associated with the literal, in the order of their numbers
(`lit2cs_` is an unordered multimap). -/
def Book.consOf (b : Book) (lit : Lit) : List Nat :=
  (List.range b.cs.length).filter (fun n => match b.cs[n]? with | some c => c.alive && c.con.lit == lit | none => false)

/-- solver.cc:693-698 `propagate_` for a literal. -/
def propagateLit (cc : CC) (lit : Lit) : SM Bool := do
  modify (fun W => { W with book := (W.book.consOf lit).foldl Book.markTodo W.book })
  updateDomain cc lit

/-- The loop at solver.cc:684-688. -/
def propagateLits (cc : CC) : List Lit → SM Bool
  | [] => return true
  | l :: ls => do
    if !(← propagateLit cc l) then return false
    else propagateLits cc ls

/-- solver.cc:675-691 `propagate_` for a range of literals. -/
def solverPropagate (cc : CC) (changes : List Lit) : SM Bool := do
  pushLevel cc.level
  propagateLits cc changes

/-- solver.cc:848-853: facts are integrated. -/
def integrateFacts (cc : CC) : SM Bool := do
  let W ← get
  if W.factmap.isEmpty then return true
  else do
    assertS (cc.level == 0)
    updateDomain cc TRUE_LIT

/-- solver.cc:855-865: the constraints are informed about changed bounds. -/
def deliver (level : Nat) : SM Unit := do
  let W ← get
  let b ← liftRes (Book.updateUppers level W.book.inUdiff W.book)
  let b ← liftRes (Book.updateLowers level b.inLdiff b)
  modify (fun W => { W with book := b })

/-- solver.cc:869-882: the body of the loop over the queue while there is no conflict. -/
def checkOne (cc : CC) (checkState : Bool) (n : Nat) : SM Bool := do
  let c ← getCS n
  setCS n { c with todo := false }
  let f ← qFalse cc c.con.lit
  if !f then propagateCS cc checkState n
  else do
    markInactiveS n
    return true

/-- The loop at solver.cc:869-883; after a conflict only the marks are cleared. -/
def checkTodo (cc : CC) (checkState : Bool) : List Nat → SM Bool
  | [] => return true
  | n :: ns => do
    if !(← checkOne cc checkState n) then do
      modify (fun W => { W with book.cs := Book.unmarkTodo W.book.cs ns })
      return false
    else checkTodo cc checkState ns

/-- The loop at solver.cc:844-888; the number bounds the iterations. -/
def checkLoop (cc : CC) (checkState : Bool) (level : Nat) : Nat → SM Bool
  | 0 => SM.ub
  | n + 1 => do
    if !(← integrateFacts cc) then return false
    else do
      deliver level
      let W ← get
      let ret ← checkTodo cc checkState W.book.todo
      modify (fun W => { W with book.todo := [] })
      let W ← get
      if !ret || W.factmap.isEmpty then return ret
      else checkLoop cc checkState level n

/-- solver.cc:829-889 `check`. -/
def solverCheck (cc : CC) (checkState : Bool) (fuel : Nat) : SM Bool := do
  let lvl ← curLevel
  let W ← get
  if cc.level ≠ lvl.level ∧ lvl.level ≥ W.book.minimizeLevel then return true
  else checkLoop cc checkState lvl.level fuel

/-- The loop at solver.cc:649-668; the number bounds the iterations. The trail depends on the calls made. -/
def factLoop (cc : CC) (trail : List SEv → List Lit) (checkState : Bool) (fuel : Nat) : Nat → SM Bool
  | 0 => SM.ub
  | n + 1 => do
    if !(← ccPropagate cc) then return false
    else do
      let W ← get
      let t := trail W.log
      if W.book.trailOffset = t.length ∧ W.book.todo = [] then return true
      else if !(← solverPropagate cc (t.drop W.book.trailOffset)) then return false
      else do
        modify (fun W => { W with book.trailOffset := t.length })
        if !(← solverCheck cc checkState fuel) then return false
        else factLoop cc trail checkState fuel n

/-- solver.cc:643-669 `simplify`. -/
def solverSimplify (cc : CC) (trail : List SEv → List Lit) (checkState : Bool) (fuel : Nat) : SM Bool :=
  factLoop cc trail checkState fuel fuel

/-! ### Final check -/

/-- solver.cc:931-938: `split`. -/
def splitVar (cc : CC) (v : Var) : SM Bool := do
  let vs ← getVar v
  if !vs.isAssigned then do
    discard (getLiteral cc v (midpoint 32 vs.lower vs.upper))
    return true
  else return false

/-- solver.cc:941-944: all variables are split. -/
def splitEach (cc : CC) : List Var → SM Bool
  | [] => return false
  | v :: vs => do
    let r ← splitVar cc v
    let q ← splitEach cc vs
    return q || r

/-- solver.cc:953-970: the first unassigned variable is split. -/
def splitFirst (cc : CC) : List Var → SM Bool
  | [] => return false
  | v :: vs => do
    if ← splitVar cc v then do
      modify (fun W => { W with book.splitLast := v })
      return true
    else splitFirst cc vs

/-- The value of a linear term if all variables are assigned (constraints.cc:111-118, 1015-1022). -/
def checkValue : CoVarVec → SM Int
  | [] => return 0
  | (co, v) :: es => do
    let vs ← getVar v
    if !vs.isAssigned then throw .logic
    else do
      let x ← checkValue es
      return co * vs.lower + x

/-- constraints.cc:105-137 `check_full` of linear constraints. -/
def sumCheckFull (c : CState) (rhs : Int) (es : CoVarVec) : SM Unit := do
  let lhs ← checkValue es
  if c.markedInactive then
    (if lhs > c.upper then throw .logic else if lhs > rhs then throw .logic else return)
  else if lhs ≠ c.upper then throw .logic
  else if lhs > c.lower then throw .logic
  else if lhs > rhs then throw .logic
  else return

/-- constraints.cc:1011-1027 `check_full` of distinct constraints; the list are the values so far. -/
def distinctCheckFull : List (CoVarVec × Int) → List Int → SM Unit
  | [], _ => return
  | (e, fixed) :: es, values => do
    let x ← checkValue e
    if values.contains (fixed + x) then throw .logic
    else distinctCheckFull es ((fixed + x) :: values)

/-- constraints.cc:1853-1864 `check_full` of disjoint constraints. The end of an interval is computed in the
type of values (32 bits). -/
def disjointCheckFull : CoVarVec → IntervalSet → SM Unit
  | [], _ => return
  | (w, v) :: es, set => do
    let vs ← getVar v
    let u ← liftRes (mAdd Limits.val vs.upper w)
    if set.intersects vs.lower u then throw .logic
    else disjointCheckFull es (set.add vs.lower u)

/-- constraints.cc:1547-1563 `check_full` of nonlinear constraints. -/
def nonlinearCheckFull (ca : Int) (x y : Var) (cb : Int) (z : Var) (rhs : Int) : SM Unit := do
  let vx ← getVar x
  let vy ← getVar y
  if cb = 0 then
    (if ca * vx.lower * vy.lower > rhs then throw .logic else return)
  else do
    let vz ← getVar z
    if ca * vx.lower * vy.lower + cb * vz.lower > rhs then throw .logic else return

/-- `check_full` of constraint states. -/
def checkFullCS (c : CState) : SM Unit := do
  match c.con with
  | .sum _ r es => sumCheckFull c r es
  | .minimize _ es => do
    let W ← get
    match ← liftRes (minimizeRhs W.book) with
    | none => return
    | some r => sumCheckFull c r es
  | .distinct _ es => distinctCheckFull es []
  | .nonlinear _ ca x y cb z r => nonlinearCheckFull ca x y cb z r
  | .disjoint _ es => disjointCheckFull es []

/-- solver.cc:974-981: all constraints whose literal is true are checked. -/
def checkSolution (cc : CC) : List CState → SM Unit
  | [] => return
  | c :: cs => do
    let t ← qTrue cc c.con.lit
    whenS (c.alive && t) (checkFullCS c)
    checkSolution cc cs

/-- solver.cc:930-982 `check_full`. -/
def solverCheckFull (cc : CC) (checkSol : Bool) : SM Unit := do
  let W ← get
  let vars := List.range W.vars.length
  let split ← (if cc.conf.splitAll then splitEach cc vars
    else splitFirst cc (vars.drop W.book.splitLast ++ vars.take W.book.splitLast))
  whenS (!split && checkSol) do
    let W ← get
    checkSolution cc W.book.cs

/-! ### Decisions, bounds of other threads and copies -/

/-- solver.cc:903-928 `decide`. -/
def solverDecide (cc : CC) (fallback : Lit) : SM Lit := do
  match cc.conf.heuristic with
  | .none => return fallback
  | .maxChain => do
    let e ← litmapAt fallback
    let e' ← litmapAt (-fallback)
    if e.valid fallback then do
      let vs ← getVar e.var
      let lit := vs.litGe vs.lower
      assertS ((← qValue cc lit) == none)
      return lit
    else if e'.valid (-fallback) then do
      let vs ← getVar e'.var
      let lit := -vs.litLt vs.upper
      assertS ((← qValue cc lit) == none)
      return lit
    else return fallback

/-- solver.cc:1008-1013: the upper bound of the other solver is taken over. -/
def takeUpper (cc : CC) (v : Var) (other : VarState) : SM Bool := do
  let vs ← getVar v
  if other.upper < vs.upper then do
    let l ← updateLiteral cc v other.upper (some true)
    addClause cc [l]
  else return true

/-- solver.cc:1016-1021: the lower bound of the other solver is taken over. -/
def takeLower (cc : CC) (v : Var) (other : VarState) : SM Bool := do
  let vs ← getVar v
  if vs.lower < other.lower then do
    let l ← updateLiteral cc v (other.lower - 1) (some false)
    addClause cc [-l]
  else return true

/-- The loop at solver.cc:1004-1022. -/
def takeBounds (cc : CC) : Nat → List VarState → SM Bool
  | _, [] => return true
  | v, o :: os => do
    if !(← takeUpper cc v o) then return false
    else if !(← takeLower cc v o) then return false
    else takeBounds cc (v + 1) os

/-- solver.cc:1002-1026 `update_bounds`. -/
def updateBounds (cc : CC) (others : List VarState) (checkState : Bool) (fuel : Nat) : SM Bool := do
  if !(← takeBounds cc 0 others) then return false
  else solverCheck cc checkState fuel

end Clingcon
