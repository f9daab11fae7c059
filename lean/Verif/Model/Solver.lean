import Verif.Model.VarState

/-! Model of the state of `Solver` (`libclingcon/clingcon/solver.hh:572-887`) and of the functions in
`libclingcon/src/solver.cc` that maintain order literals and bounds of variables.

Constraint states are numbered; a pointer to a constraint state is its number. Violated assertions are
the outcome `Err.ub`. -/
namespace Clingcon

/-- Calls to the clause creator (base.hh:246-275), newest first in the logs below. The event `order` is
ghost information: it is recorded when a literal becomes the order literal of a value
(solver.cc:449-456). -/
inductive SEv where
  /-- `add_literal` returned the literal -/
  | lit (l : Lit)
  /-- `add_watch` -/
  | watch (l : Lit)
  /-- the literal is associated with `var <= value` -/
  | order (l : Lit) (var : Var) (value : Int)
  /-- `add_clause` -/
  | clause (c : List Lit)
  /-- `add_clause` with a volatile clause, which is dropped at the end of the solve step -/
  | volatile (c : List Lit)
  /-- `propagate` -/
  | propagate
  /-- `add_weight_constraint` (base.hh:338-357) -/
  | weight (lit : Lit) (wlits : List (Lit × Int)) (bound : Int) (type : Int)
  /-- `add_minimize` (base.hh:360) -/
  | minimize (lit : Lit) (weight : Int)
  deriving DecidableEq, Repr

/-- `Heuristic` (base.hh:49). -/
inductive Heuristic where
  | none
  | maxChain
  deriving DecidableEq, Repr

/-- `SolverConfig` (base.hh:203-210). -/
structure SConf where
  heuristic : Heuristic := .none
  signValue : Int := 0
  splitAll : Bool := false
  propagateChain : Bool := true
  refineReasons : Bool := true
  refineIntroduce : Bool := true
  deriving DecidableEq, Repr

/-- Intervals of disjoint constraint states (constraints.cc:1594-1602). -/
structure DInterval where
  var : Var
  left : Int := 0
  right : Int := 0
  lastLeft : Int := 0
  lastRight : Int := 0
  weight : Int
  u : Int := 0
  deriving DecidableEq, Repr

/-- `std::sort` by a key: a function that returns a permutation of its argument ordered by the key. The order of elements with
equal keys is not specified. -/
structure Sorter where
  fn : (DInterval → Int) → List DInterval → List DInterval
  perm : ∀ key l, (fn key l).Perm l
  sorted : ∀ key l, (fn key l).Pairwise (fun a b => key a ≤ key b)

/-- Insertion into a list that is ordered by a key. -/
def insertBy (key : DInterval → Int) (i : DInterval) : List DInterval → List DInterval
  | [] => [i]
  | j :: l => if key i ≤ key j then i :: j :: l else j :: insertBy key i l

theorem insertBy_perm (key : DInterval → Int) (i : DInterval) : ∀ l, (insertBy key i l).Perm (i :: l)
  | [] => .refl _
  | j :: l => by
    unfold insertBy
    split
    · exact .refl _
    · exact ((insertBy_perm key i l).cons j).trans (.swap ..)

theorem insertBy_sorted (key : DInterval → Int) (i : DInterval) : ∀ l, l.Pairwise (fun a b => key a ≤ key b) → (insertBy key i l).Pairwise (fun a b => key a ≤ key b)
  | [], _ => List.pairwise_singleton ..
  | j :: l, h => by
    obtain ⟨h1, h2⟩ := List.pairwise_cons.mp h
    unfold insertBy
    split
    · refine List.pairwise_cons.mpr ⟨fun x hx => ?_, h⟩
      rcases List.mem_cons.mp hx with rfl | hx
      · assumption
      · have := h1 x hx; omega
    · refine List.pairwise_cons.mpr ⟨fun x hx => ?_, insertBy_sorted key i l h2⟩
      rcases List.mem_cons.mp ((insertBy_perm key i l).mem_iff.mp hx) with rfl | hx
      · omega
      · exact h1 x hx

/-- A stable sorter. -/
def Sorter.stable : Sorter where
  fn := fun key l => l.foldr (insertBy key) []
  perm := fun key l => by
    induction l with
    | nil => exact .refl _
    | cons i l ih => exact (insertBy_perm key i _).trans (ih.cons i)
  sorted := fun key l => by
    induction l with
    | nil => exact List.Pairwise.nil
    | cons i l ih => exact insertBy_sorted key i _ ih

/-- The clause creator together with the assignment of the Boolean solver. All answers may depend on the
calls made so far: adding clauses changes the assignment. Truth values are given for atoms, so that
complementary literals have complementary values. -/
structure CC where
  conf : SConf
  /-- truth value of an atom -/
  atom : List SEv → Nat → Option Bool
  /-- whether the atom is assigned on decision level 0 -/
  fix : List SEv → Nat → Bool
  /-- decision level on which an atom was assigned -/
  lev : List SEv → Nat → Nat
  /-- current decision level, which does not change during a call of the propagator -/
  level : Nat
  /-- result of the call made last -/
  accept : List SEv → Bool
  /-- `std::sort` by a key in disjoint constraints (constraints.cc:1757), not necessarily stable -/
  sort : Sorter := Sorter.stable

/-- `LitmapEntry` (solver.cc:286-346). The sign bit is a Boolean. -/
structure LitmapEntry where
  var : Var := 0
  sign : Bool := false
  value : Int := 0
  prev : Lit := 0
  succ : Lit := 0
  deriving DecidableEq, Repr

namespace LitmapEntry
/-- solver.cc:339 `get_sign_`. -/
def getSign (l : Lit) : Bool := decide (l > 0)
/-- solver.cc:294 `valid`. -/
def valid (e : LitmapEntry) (l : Lit) : Bool := e.prev != 0 && getSign l == e.sign
/-- solver.cc:296 `invalid`. -/
def invalid (e : LitmapEntry) : Bool := e.prev == 0
end LitmapEntry

/-- Constraints (constraints.hh:48-341). -/
inductive Constr where
  | sum (lit : Lit) (rhs : Int) (elems : List (Int × Var))
  | minimize (adjust : Int) (elems : List (Int × Var))
  | distinct (lit : Lit) (elems : List (List (Int × Var) × Int))
  | disjoint (lit : Lit) (elems : List (Int × Var))
  | nonlinear (lit : Lit) (coA : Int) (x y : Var) (coB : Int) (z : Var) (rhs : Int)
  deriving DecidableEq, Repr

/-- `literal()` of constraints (constraints.hh:68,121,176,273,317). -/
def Constr.lit : Constr → Lit
  | .sum l _ _ => l
  | .minimize _ _ => TRUE_LIT
  | .distinct l _ => l
  | .disjoint l _ => l
  | .nonlinear l _ _ _ _ _ _ => l

/-- Constraint states. The common members are `todo_` and `inactive_level_`; `lower`, `upper` belong to
linear constraints and objectives (constraints.cc:715-720), the members up to `upperSet` to distinct
constraints (constraints.cc:1303-1314), and the remaining ones to disjoint constraints
(constraints.cc:1887-1891). The sets `lower_` and `upper_` of pairs are lists sorted in increasing order. -/
structure CState where
  con : Constr
  /-- whether the constraint is in `c2cs_` -/
  alive : Bool := true
  todo : Bool := false
  inactive : Nat := 0
  lower : Int := 0
  upper : Int := 0
  assigned : List (Int × Int) := []
  dirty : List Nat := []
  inDirty : List Bool := []
  todoLower : List Nat := []
  todoUpper : List Nat := []
  inTodoLower : List Bool := []
  inTodoUpper : List Bool := []
  lowerSet : List (Int × Nat) := []
  upperSet : List (Int × Nat) := []
  intervals : List DInterval := []
  forceUpdate : Bool := true
  deriving DecidableEq, Repr

namespace CState
/-- `removable()` (constraints.cc:51,1038,1572,1870). -/
def removable (cs : CState) : Bool := match cs.con with | .minimize _ _ => false | _ => true
/-- solver.hh:124 `marked_inactive`. -/
def markedInactive (cs : CState) : Bool := decide (cs.inactive > 0)
/-- solver.hh:136 `removable(level)`. -/
def removableAt (cs : CState) (level : Nat) : Bool := cs.markedInactive && decide (cs.inactive ≤ level)
end CState

/-- `Solver::Level` (solver.cc:34-284). -/
structure Lvl where
  level : Nat
  undoLowerOff : Nat := 0
  undoUpperOff : Nat := 0
  inactiveOff : Nat := 0
  removedOff : Nat := 0
  deriving DecidableEq, Repr

/-- The members of `Solver` (solver.hh:835-886) concerned with levels and constraints. `levels` has the
current level at its head; `lit2cs_` is determined by the constraint states. -/
structure Book where
  levels : List Lvl := [⟨0, 0, 0, 0, 0⟩]
  cs : List CState := []
  watches : List (List (Int × Nat)) := []
  removed : List (Var × Int × Nat) := []
  undoLower : List Var := []
  undoUpper : List Var := []
  ldiff : List Int := []
  udiff : List Int := []
  inLdiff : List Var := []
  inUdiff : List Var := []
  todo : List Nat := []
  inactive : List Nat := []
  splitLast : Nat := 0
  trailOffset : Nat := 0
  minimizeBound : Option Int := none
  minimizeLevel : Nat := 0
  translateMinimize : Bool := false
  deriving DecidableEq, Repr

/-- The members of `Solver` (solver.hh:835-886), those for levels and constraints being in `book`. The
literal counter stands for the Boolean solver's supply of fresh literals and `log` for the calls made.
Timers and the statistics on refined reasons are omitted. -/
structure World where
  vars : List VarState := []
  litmap : List LitmapEntry := []
  factmap : List (Lit × Var × Int × Lit) := []
  nextLit : Lit := 2
  log : List SEv := []
  book : Book := {}
  deriving DecidableEq, Repr

/-- Computations of the solver. -/
abbrev SM := StateT World (Except Err)

/-- Undefined behaviour or a violated assertion. -/
def SM.ub {α : Type} : SM α := fun _ => .error .ub

/-- Computations on a variable state. -/
def liftRes {α : Type} (r : Res α) : SM α := fun W => match r with | .ok a => .ok (a, W) | .error e => .error e

/-- `if` without `else`. -/
def whenS (b : Bool) (x : SM Unit) : SM Unit := if b then x else pure ()

/-- `assert`. -/
def assertS (b : Bool) : SM Unit := if b then pure () else SM.ub

namespace CC
/-- `Assignment::truth_value`. -/
def value (cc : CC) (log : List SEv) (l : Lit) : Option Bool :=
  if l > 0 then cc.atom log l.natAbs else (cc.atom log l.natAbs).map not
/-- `Assignment::is_true`. -/
def isTrue (cc : CC) (log : List SEv) (l : Lit) : Bool := cc.value log l == some true
/-- `Assignment::is_false`. -/
def isFalse (cc : CC) (log : List SEv) (l : Lit) : Bool := cc.value log l == some false
/-- `Assignment::is_fixed`. -/
def isFixed (cc : CC) (log : List SEv) (l : Lit) : Bool := cc.fix log l.natAbs
/-- `Assignment::level`. -/
def litLevel (cc : CC) (log : List SEv) (l : Lit) : Nat := cc.lev log l.natAbs
end CC

/-- `ass.truth_value(lit)`. -/
def qValue (cc : CC) (l : Lit) : SM (Option Bool) := fun W => .ok (cc.value W.log l, W)
/-- `ass.is_true(lit)`. -/
def qTrue (cc : CC) (l : Lit) : SM Bool := fun W => .ok (cc.isTrue W.log l, W)
/-- `ass.is_false(lit)`. -/
def qFalse (cc : CC) (l : Lit) : SM Bool := fun W => .ok (cc.isFalse W.log l, W)
/-- `ass.is_fixed(lit)`. -/
def qFixed (cc : CC) (l : Lit) : SM Bool := fun W => .ok (cc.isFixed W.log l, W)
/-- `ass.level(lit)`. -/
def qLitLevel (cc : CC) (l : Lit) : SM Nat := fun W => .ok (cc.litLevel W.log l, W)
/-- `ass.decision_level()`. -/
def qLevel (cc : CC) : SM Nat := fun W => .ok (cc.level, W)

/-- `AbstractClauseCreator::add_literal` (base.hh:254). -/
def newLit : SM Lit := fun W => .ok (W.nextLit, { W with nextLit := W.nextLit + 1, log := .lit W.nextLit :: W.log })
/-- `AbstractClauseCreator::add_watch` (base.hh:256). -/
def addWatch (l : Lit) : SM Unit := fun W => .ok ((), { W with log := .watch l :: W.log })
/-- `AbstractClauseCreator::add_clause` (base.hh:259). -/
def addClause (cc : CC) (c : List Lit) : SM Bool := fun W =>
  .ok (cc.accept (.clause c :: W.log), { W with log := .clause c :: W.log })
/-- `AbstractClauseCreator::add_clause` with clause type `Volatile` (base.hh:259). -/
def addVolatile (cc : CC) (c : List Lit) : SM Bool := fun W =>
  .ok (cc.accept (.volatile c :: W.log), { W with log := .volatile c :: W.log })
/-- `AbstractClauseCreator::propagate` (base.hh:264). -/
def ccPropagate (cc : CC) : SM Bool := fun W =>
  .ok (cc.accept (.propagate :: W.log), { W with log := .propagate :: W.log })

/-- solver.hh:601-609 `var_state`. -/
def getVar (v : Var) : SM VarState := fun W =>
  match W.vars[v]? with
  | some vs => .ok (vs, W)
  | none => .error .ub
/-- Change of the variable state `var_state(v)`. -/
def setVar (v : Var) (vs : VarState) : SM Unit := fun W => .ok ((), { W with vars := W.vars.set v vs })

/-- solver.cc:331 `map_offset` (for literals other than 0). -/
def mapOffset (l : Lit) : Nat := l.natAbs - 1

/-- solver.cc:443-447 `litmap_at_`: an entry that is out of range is the static invalid entry. -/
def litmapAt (l : Lit) : SM LitmapEntry := fun W =>
  .ok (if l = 0 then {} else W.litmap.getD (mapOffset l) {}, W)

/-- `set_succ`/`set_prev` of a valid entry (solver.cc:313-327). -/
def setEntry (l : Lit) (e : LitmapEntry) : SM Unit := fun W => .ok ((), { W with litmap := W.litmap.set (mapOffset l) e })

/-- The bodies of the two conditionals of `update_litmap_` (solver.cc:485-489, 492-496): the entry of the
literal is changed if there is a literal and its entry is valid. -/
def relink (l : Lit) (upd : LitmapEntry → LitmapEntry) : SM Unit := do
  let e ← litmapAt l
  whenS (decide (l ≠ 0) && e.valid l) (setEntry l (upd e))

/-- solver.cc:482-497 `update_litmap_`. -/
def updateLitmap (var : Var) (lit : Lit) (value : Int) : SM (Lit × Lit) := do
  let vs ← getVar var
  let prev := vs.litLt value
  let succ := vs.litGt value
  relink prev (fun e => { e with succ := if lit ≠ 0 then lit else vs.litSucc value })
  relink succ (fun e => { e with prev := if lit ≠ 0 then lit else vs.litPrev value })
  return (if prev ≠ 0 then prev else -TRUE_LIT, if succ ≠ 0 then succ else TRUE_LIT)

/-- `std::vector::resize` of the litmap (solver.cc:451-453). -/
def growTo (n : Nat) (m : List LitmapEntry) : List LitmapEntry := m ++ List.replicate (n - m.length) ({ } : LitmapEntry)

/-- solver.cc:449-456 `litmap_add_`. Offset 0 with literal 0 would be a negative offset: undefined. -/
def litmapAdd (var : Var) (value : Int) (lit : Lit) : SM Unit := do
  assertS (lit != 0)
  modify (fun W => { W with litmap := growTo (mapOffset lit + 1) W.litmap })
  let ps ← updateLitmap var lit value
  assertS (ps.1 != 0)
  modify (fun W => { W with
    litmap := W.litmap.set (mapOffset lit) ⟨var, LitmapEntry.getSign lit, value, ps.1, ps.2⟩
    log := .order lit var value :: W.log })

/-- solver.cc:458-480 `get_literal`. -/
def getLiteral (cc : CC) (var : Var) (value : Int) : SM Lit := do
  let vs ← getVar var
  if value < vs.minBound then return -TRUE_LIT
  else if value ≥ vs.maxBound then return TRUE_LIT
  else do
    let p ← liftRes (vs.getOrAddLiteral value)
    setVar var p.2
    if p.1 = 0 then do
      let n ← newLit
      let l := if value ≥ cc.conf.signValue then -n else n
      let vs' ← liftRes (p.2.writeLiteral value l)
      setVar var vs'
      litmapAdd var value l
      addWatch l
      addWatch (-l)
      return l
    else return p.1

/-- solver.cc:499-520 `update_literal`; the truth value is `none` for `Free`. -/
def updateLiteral (cc : CC) (var : Var) (value : Int) (truth : Option Bool) : SM Lit := do
  let lvl ← qLevel cc
  match truth, decide (lvl > 0) with
  | some t, false => do
    let vs ← getVar var
    if value < vs.minBound then return -TRUE_LIT
    else if value ≥ vs.maxBound then return TRUE_LIT
    else do
      let p ← liftRes (vs.getOrAddLiteral value)
      setVar var p.2
      if p.1 = 0 then do
        let l := if t then TRUE_LIT else -TRUE_LIT
        let vs' ← liftRes (p.2.writeLiteral value l)
        setVar var vs'
        let ps ← updateLitmap var l value
        modify (fun W => { W with factmap := W.factmap ++ [(l, var, value, if t then ps.2 else ps.1)] })
        return l
      else return p.1
  | _, _ => getLiteral cc var value

/-- solver.cc:431-434 `level_`. -/
def curLevel : SM Lvl := fun W => match W.book.levels with | [] => .error .ub | l :: _ => .ok (l, W)

/-- solver.cc:436-441 `push_level_` and solver.cc:36-39. -/
def pushLevel (level : Nat) : SM Unit := do
  let l ← curLevel
  whenS (decide (l.level < level)) <|
    modify (fun W => { W with book.levels :=
      ⟨level, W.book.undoLower.length, W.book.undoUpper.length, W.book.inactive.length, W.book.removed.length⟩ :: W.book.levels })

/-- solver.cc:44-57 `Level::update_lower`. -/
def updateLower (lvl : Nat) (var : Var) (value : Int) : SM Unit := do
  let vs ← getVar var
  let diff := value + 1 - vs.lower
  let fresh := decide (lvl > 0) && !vs.pushedLower lvl
  whenS fresh (modify (fun W => { W with book.undoLower := W.book.undoLower ++ [var] }))
  let vs' := if fresh then vs.pushLower lvl else vs
  assertS (decide (value + 1 ≥ vs'.lower))
  setVar var { vs' with lower := value + 1 }
  modify (fun W => { W with
    book.inLdiff := if W.book.ldiff.getD var 0 = 0 then W.book.inLdiff ++ [var] else W.book.inLdiff
    book.ldiff := W.book.ldiff.set var (W.book.ldiff.getD var 0 + diff) })

/-- solver.cc:60-73 `Level::update_upper`. -/
def updateUpper (lvl : Nat) (var : Var) (value : Int) : SM Unit := do
  let vs ← getVar var
  let diff := value - vs.upper
  let fresh := decide (lvl > 0) && !vs.pushedUpper lvl
  whenS fresh (modify (fun W => { W with book.undoUpper := W.book.undoUpper ++ [var] }))
  let vs' := if fresh then vs.pushUpper lvl else vs
  assertS (decide (value ≤ vs'.upper))
  setVar var { vs' with upper := value }
  modify (fun W => { W with
    book.inUdiff := if W.book.udiff.getD var 0 = 0 then W.book.inUdiff ++ [var] else W.book.inUdiff
    book.udiff := W.book.udiff.set var (W.book.udiff.getD var 0 + diff) })

/-- solver.cc:700-721 `propagate_variables_`: `sign` is 1 or -1, the list are the literals of the
traversal. -/
def propagateVariables (cc : CC) (sign : Int) : Lit → List Lit → SM Bool
  | _, [] => return true
  | reason, l :: ls => do
    if ← qTrue cc (sign * l) then return true
    else if !(← addClause cc [-reason, sign * l]) then return false
    else if cc.conf.propagateChain && decide ((← qLevel cc) > 0) then propagateVariables cc sign (sign * l) ls
    else propagateVariables cc sign reason ls

/-- solver.cc:723-741 `update_upper_`. -/
def updateUpperLit (cc : CC) (lvl : Nat) (var : Var) (lit : Lit) (value : Int) (succLit : Lit) : SM Bool := do
  let vs ← getVar var
  if value < vs.lower then do
    let l ← getLiteral cc var (vs.lower - 1)
    whenS (← addClause cc [l, -lit]) (discard (ccPropagate cc))
    return false
  else do
    whenS (decide (vs.upper > value)) (updateUpper lvl var value)
    let vs ← getVar var
    assertS (decide (vs.lower ≤ vs.upper))
    if ← qTrue cc succLit then return true
    else propagateVariables cc 1 lit ((vs.withGt value).map (·.2))

/-- solver.cc:743-761 `update_lower_`. -/
def updateLowerLit (cc : CC) (lvl : Nat) (var : Var) (lit : Lit) (value : Int) (prevLit : Lit) : SM Bool := do
  let vs ← getVar var
  if vs.upper < value + 1 then do
    let l ← getLiteral cc var vs.upper
    whenS (← addClause cc [-l, -lit]) (discard (ccPropagate cc))
    return false
  else do
    whenS (decide (vs.lower < value + 1)) (updateLower lvl var value)
    let vs ← getVar var
    assertS (decide (vs.lower ≤ vs.upper))
    if ← qTrue cc (-prevLit) then return true
    else propagateVariables cc (-1) lit ((vs.withLt value).map (·.2))

/-- `unset()` (solver.cc:329). -/
def unsetEntry (l : Lit) : SM Unit := fun W =>
  .ok ((), { W with litmap := W.litmap.set (mapOffset l) { W.litmap.getD (mapOffset l) {} with prev := 0 } })

/-- The two blocks at solver.cc:770-785 replacing an order literal that is fixed on the top level; `olit`
is the literal or its complement, `fact` the literal replacing it. -/
def makeFact (olit fact : Lit) : SM Unit := do
  let e ← litmapAt olit
  whenS (e.valid olit) do
    let vs ← getVar e.var
    let old ← liftRes (vs.getLiteral e.value)
    assertS (old == some olit)
    let vs ← liftRes (vs.setLiteral e.value fact)
    setVar e.var vs
    discard (updateLitmap e.var fact e.value)
    let e ← litmapAt olit
    modify (fun W => { W with factmap := W.factmap ++ [(fact, e.var, e.value, if fact = TRUE_LIT then e.succ else e.prev)] })
    unsetEntry olit

/-- solver.cc:801-803, 808-810: an integrated fact is removed from the order literals. -/
def dropFact (fact : Lit) (var : Var) (value : Int) : SM Unit := do
  let vs ← getVar var
  let old ← liftRes (vs.getLiteral value)
  assertS (old == some (if fact = TRUE_LIT then TRUE_LIT else -TRUE_LIT))
  discard (updateLitmap var 0 value)
  let vs ← liftRes (vs.unsetLiteral value)
  setVar var vs

/-- The loop at solver.cc:796-813 over the facts. -/
def propagateFacts (cc : CC) (lvl : Nat) : List (Lit × Var × Int × Lit) → SM Bool
  | [] => return true
  | (fact, var, value, prec) :: fs => do
    let ok ← (if fact = TRUE_LIT then updateUpperLit cc lvl var TRUE_LIT value prec
      else updateLowerLit cc lvl var TRUE_LIT value prec)
    if !ok then return false
    else do
      dropFact fact var value
      propagateFacts cc lvl fs

/-- solver.cc:766-791: facts replace order literals fixed on the top level. -/
def simplifyLit (cc : CC) (lit : Lit) : SM Lit := do
  let fixed ← qFixed cc lit
  if decide (lit ≠ TRUE_LIT) && (cc.level == 0 && fixed) then do
    makeFact lit TRUE_LIT
    makeFact (-lit) (-TRUE_LIT)
    return TRUE_LIT
  else return lit

/-- solver.cc:763-827 `update_domain_`. -/
def updateDomain (cc : CC) (lit : Lit) : SM Bool := do
  let lvl ← curLevel
  assertS (← qTrue cc lit)
  let lit ← simplifyLit cc lit
  if lit = TRUE_LIT then do
    assertS ((← qLevel cc) == 0)
    let W ← get
    if !(← propagateFacts cc lvl.level W.factmap) then return false
    else do
      modify (fun W => { W with factmap := [] })
      return true
  else do
    let e ← litmapAt lit
    let ok ← (if e.valid lit then updateUpperLit cc lvl.level e.var lit e.value e.succ else pure true)
    if !ok then return false
    else do
      let e ← litmapAt (-lit)
      if e.valid (-lit) then updateLowerLit cc lvl.level e.var lit e.value e.prev else pure true

/-- solver.cc:407-414 `add_variable`. -/
def addVar (lo hi : Int) : SM Var := fun W =>
  .ok (W.vars.length, { W with
    vars := W.vars ++ [{ lower := lo, upper := hi }]
    book.watches := W.book.watches ++ [[]]
    book.ldiff := W.book.ldiff ++ [0]
    book.udiff := W.book.udiff ++ [0] })

/-- solver.cc:993-998: the order literal in the entry is removed. -/
def dropLit (l : Lit) (e : LitmapEntry) : SM Unit := do
  let vs ← getVar e.var
  let vs ← liftRes (vs.unsetLiteral e.value)
  setVar e.var vs
  discard (updateLitmap e.var 0 e.value)
  unsetEntry l

/-- The loop at solver.cc:991-999 over the entries of the litmap; `n` is the number of remaining entries. -/
def updateStep (maxStatic : Nat) : Nat → Nat → SM Unit
  | 0, _ => return
  | n + 1, offset => do
    let e ← litmapAt (offset + 1 : Nat)
    whenS (!e.invalid && decide (offset + 1 > maxStatic)) (dropLit (offset + 1 : Nat) e)
    updateStep maxStatic n (offset + 1)

/-- solver.cc:984-1000 `update`: `maxStatic` is `max_static_var_`. -/
def solverUpdate (maxStatic : Nat) : SM Unit := do
  modify (fun W => { W with book.minimizeBound := none, book.minimizeLevel := 0 })
  let W ← get
  updateStep maxStatic W.litmap.length 0

/-- The literal for the preceding interval in the first loop of `add_dom` (solver.cc:1041-1043). -/
def prevTrue (cc : CC) (var : Var) : Option Int → SM Lit
  | some p => do
    let l ← getLiteral cc var (p - 1)
    return -l
  | none => return TRUE_LIT

/-- The literal for the succeeding interval in the second loop of `add_dom` (solver.cc:1055-1057). -/
def succTrue (cc : CC) (var : Var) : Option Int → SM Lit
  | some p => getLiteral cc var (p - 1)
  | none => return TRUE_LIT

/-- The first loop of `add_dom` (solver.cc:1039-1050). -/
def addDomLower (cc : CC) (lit : Lit) (var : Var) : Option Int → List (Int × Int) → SM Bool
  | _, [] => return true
  | py, (x, y) :: dom => do
    let ly ← prevTrue cc var py
    let t ← qTrue cc ly
    let truth := if lit = TRUE_LIT ∧ t = true then some false else none
    let lx ← updateLiteral cc var (x - 1) truth
    if !(← addClause cc [-lit, -ly, -lx]) then return false
    else addDomLower cc lit var (some y) dom

/-- The second loop of `add_dom` (solver.cc:1053-1065), over the reversed domain. -/
def addDomUpper (cc : CC) (lit : Lit) (var : Var) : Option Int → List (Int × Int) → SM Bool
  | _, [] => return true
  | px, (x, y) :: dom => do
    let lx ← succTrue cc var px
    let t ← qTrue cc lx
    let truth := if lit = TRUE_LIT ∧ t = true then some true else none
    let ly ← updateLiteral cc var (y - 1) truth
    if !(← addClause cc [-lit, -lx, ly]) then return false
    else addDomUpper cc lit var (some x) dom

/-- solver.cc:1028-1068 `add_dom`. -/
def addDom (cc : CC) (lit : Lit) (var : Var) (dom : List (Int × Int)) : SM Bool := do
  if ← qFalse cc lit then return true
  else do
    let lit := if ← qTrue cc lit then TRUE_LIT else lit
    if !(← addDomLower cc lit var none dom) then return false
    else addDomUpper cc lit var none dom.reverse

/-- solver.cc:1081-1106: whether a strict constraint can be represented by one new order literal. -/
def canReuse (var : Var) (value : Int) (strict : Bool) : SM Bool := do
  let vs ← getVar var
  if strict ∧ vs.minBound ≤ value ∧ value < vs.maxBound then do
    let b ← liftRes (vs.hasLiteral value)
    return !b
  else return false

/-- The literal to be used as order literal: the given one if it is not yet an order literal, otherwise a
new one that is made equivalent (solver.cc:1097-1103). The event telling the meaning of the new literal is
a ghost. -/
def freeLit (cc : CC) (lit : Lit) (var : Var) (value : Int) : SM (Option Lit) := do
  let e ← litmapAt lit
  if e.invalid then return some lit
  else do
    let l ← newLit
    modify (fun W => { W with log := .order l var value :: W.log })
    if !(← addClause cc [-lit, l]) then return none
    else if !(← addClause cc [-l, lit]) then return none
    else return some l

/-- solver.cc:1097-1108, 1115: an open literal becomes the order literal. -/
def useLit (cc : CC) (lit : Lit) (var : Var) (value : Int) : SM Bool := do
  match ← freeLit cc lit var value with
  | none => return false
  | some l => do
    addWatch l
    addWatch (-l)
    litmapAdd var value l
    let vs ← getVar var
    let vs' ← liftRes (vs.setLiteral value l)
    setVar var vs'
    return true

/-- solver.cc:1109-1115: a fact becomes the order literal. -/
def useFact (t : Bool) (var : Var) (value : Int) : SM Bool := do
  let l := if t then TRUE_LIT else -TRUE_LIT
  let ps ← updateLitmap var l value
  modify (fun W => { W with factmap := W.factmap ++ [(l, var, value, if t then ps.2 else ps.1)] })
  let vs ← getVar var
  let vs' ← liftRes (vs.setLiteral value l)
  setVar var vs'
  return true

/-- solver.cc:1070-1130 `add_simple`. -/
def addSimple (cc : CC) (clit : Lit) (co : Int) (var : Var) (rhs : Int) (strict : Bool) : SM Bool := do
  if !strict && (← qFalse cc clit) then return true
  else do
    let truth ← qValue cc (if co > 0 then clit else -clit)
    let value := if co > 0 then floordiv rhs co else -floordiv rhs (-co) - 1
    let direct ← canReuse var value strict
    if direct then
      match truth with
      | none => useLit cc (if co < 0 then -clit else clit) var value
      | some t => useFact t var value
    else do
      let l ← updateLiteral cc var value truth
      let l := if co < 0 then -l else l
      if !(← addClause cc [-clit, l]) then return false
      else if strict then addClause cc [-l, clit]
      else return true

end Clingcon
