import Verif.Model.Level

/-! Model of the functions `propagate` of the constraint states in `libclingcon/src/constraints.cc`. The
vector `temp_reason` is a list that is returned. Sums are unbounded integers here; the absence of overflows
is a separate property. -/
namespace Clingcon

/-- The constraint state with the given number. Access to a state that has been removed is undefined
(constraint states are owned by `c2cs_`, solver.cc:535-563). -/
def getCS (n : Nat) : SM CState := fun W =>
  match W.book.cs[n]? with
  | some c => if c.alive then .ok (c, W) else .error .ub
  | none => .error .ub
/-- Change of the constraint state with the given number. -/
def setCS (n : Nat) (c : CState) : SM Unit := fun W => .ok ((), { W with book.cs := W.book.cs.set n c })

/-- `Solver::mark_inactive` (solver.cc:533). -/
def markInactiveS (n : Nat) : SM Unit := do
  let l ← curLevel
  modify (fun W => { W with book := W.book.markInactive l.level n })

/-- `add_clause` with the clause type used by linear constraints and objectives (constraints.cc:196,277). -/
def addClauseT (cc : CC) (tagged : Bool) (c : List Lit) : SM Bool :=
  if tagged then addVolatile cc c else addClause cc c

/-- Appending a literal to a reason unless it is fixed, e.g., constraints.cc:184-186. -/
def pushReason (cc : CC) (reason : List Lit) (l : Lit) : SM (List Lit) := do
  let f ← qFixed cc l
  return if f then reason else reason ++ [l]

/-! ### Linear constraints and objectives (constraints.cc:35-407) -/

/-- constraints.cc:335-349: refine the reason literal for the lower bound `current` using an existing
order literal. The result is whether there was no conflict, the literal, the slack and the new value. -/
def refineLower (cc : CC) (var : Var) (co slack litReason current value : Int) : SM (Bool × Lit × Int × Int) := do
  let vs ← getVar var
  match vs.orderLitGe (value - 1) with
  | some (k, l) =>
    if k + 1 < current then do
      assertS (decide (slack - co * (k + 1 - current) < 0))
      if ← qFalse cc l then return (true, l, slack - co * (k + 1 - current), k + 1)
      else do
        assertS (← qTrue cc l)
        let ret ← addClause cc [litReason, -l]
        return (ret, l, slack - co * (k + 1 - current), k + 1)
    else return (true, litReason, slack, current)
  | none => return (true, litReason, slack, current)

/-- constraints.cc:355-365: introduce a reason literal. -/
def introduceLower (cc : CC) (var : Var) (co value : Int) (p : Bool × Lit × Int × Int) : SM (Bool × Lit × Int) := do
  let ll ← qLitLevel cc p.2.1
  if p.1 && cc.conf.refineIntroduce && ll == cc.level && decide (value < p.2.2.2) then do
    assertS (decide (p.2.2.1 - co * (value - p.2.2.2) < 0))
    let refined ← getLiteral cc var (value - 1)
    assertS (!(← qTrue cc refined))
    if ← qFalse cc refined then return (true, refined, p.2.2.1 - co * (value - p.2.2.2))
    else do
      let ret ← addClause cc [p.2.1, -refined]
      return (ret, refined, p.2.2.1 - co * (value - p.2.2.2))
  else return (p.1, p.2.1, p.2.2.1)

/-- constraints.cc:321-367: the reason for the lower bound of a variable with positive coefficient. -/
def reasonLower (cc : CC) (var : Var) (co slack : Int) : SM (Bool × Lit × Int) := do
  let vs ← getVar var
  let litReason ← getLiteral cc var (vs.lower - 1)
  assertS (← qFalse cc litReason)
  let value := max (vs.lower + -floordiv (slack + 1) (-co)) vs.minBound
  if cc.conf.refineReasons && decide (slack + co < 0) && decide (cc.level > 0) && decide (value < vs.lower) then do
    let p ← refineLower cc var co slack litReason vs.lower value
    introduceLower cc var co value p
  else return (true, litReason, slack)

/-- constraints.cc:377-389: like `refineLower` for upper bounds. -/
def refineUpper (cc : CC) (var : Var) (co slack litReason current value : Int) : SM (Bool × Lit × Int × Int) := do
  let vs ← getVar var
  match vs.orderLitLe value with
  | some (k, l) =>
    if k > current then do
      assertS (decide (slack - co * (k - current) < 0))
      if ← qFalse cc (-l) then return (true, -l, slack - co * (k - current), k)
      else do
        assertS (← qTrue cc (-l))
        let ret ← addClause cc [litReason, l]
        return (ret, -l, slack - co * (k - current), k)
    else return (true, litReason, slack, current)
  | none => return (true, litReason, slack, current)

/-- constraints.cc:391-401: like `introduceLower` for upper bounds. -/
def introduceUpper (cc : CC) (var : Var) (co value : Int) (p : Bool × Lit × Int × Int) : SM (Bool × Lit × Int) := do
  let ll ← qLitLevel cc p.2.1
  if p.1 && cc.conf.refineIntroduce && ll == cc.level && decide (value > p.2.2.2) then do
    assertS (decide (p.2.2.1 - co * (value - p.2.2.2) < 0))
    let l ← getLiteral cc var value
    assertS (!(← qTrue cc (-l)))
    if ← qFalse cc (-l) then return (true, -l, p.2.2.1 - co * (value - p.2.2.2))
    else do
      let ret ← addClause cc [p.2.1, l]
      return (ret, -l, p.2.2.1 - co * (value - p.2.2.2))
  else return (p.1, p.2.1, p.2.2.1)

/-- constraints.cc:368-403: the reason for the upper bound of a variable with negative coefficient. -/
def reasonUpper (cc : CC) (var : Var) (co slack : Int) : SM (Bool × Lit × Int) := do
  let vs ← getVar var
  let l ← getLiteral cc var vs.upper
  assertS (← qFalse cc (-l))
  let value := min (vs.upper + floordiv (slack + 1) co) vs.maxBound
  if cc.conf.refineReasons && decide (slack - co < 0) && decide (cc.level > 0) && decide (value > vs.upper) then do
    let p ← refineUpper cc var co slack (-l) vs.upper value
    introduceUpper cc var co value p
  else return (true, -l, slack)

/-- constraints.cc:314-406 `calculate_reason_`: the reference parameter `slack` is the last component of
the result. -/
def calculateReason (cc : CC) (var : Var) (co slack : Int) : SM (Bool × Lit × Int) := do
  let p ← (if co > 0 then reasonLower cc var co slack else reasonUpper cc var co slack)
  let f ← qFalse cc p.2.1
  assertS (!p.1 || f)
  return p

/-- The loops at constraints.cc:174-187 and 240-257 adding reason literals for all variables but `skip`. -/
def sumReason (cc : CC) (skip : Option Var) : CoVarVec → Int → List Lit → SM (Option (List Lit))
  | [], _, reason => return some reason
  | (co, var) :: es, slack, reason => do
    if skip = some var then sumReason cc skip es slack reason
    else do
      let p ← calculateReason cc var co slack
      if !p.1 then return none
      else do
        let reason ← pushReason cc reason p.2.1
        sumReason cc skip es p.2.2 reason

/-- constraints.cc:219-221, 231-233: the literal for the consequence if it exists. -/
def hasOrder (cc : CC) (var : Var) (value : Int) (neg : Bool) : SM (Option Lit) := do
  let vs ← getVar var
  let b ← liftRes (vs.hasLiteral value)
  if b then do
    let l ← getLiteral cc var value
    return some (if neg then -l else l)
  else return none

/-- constraints.cc:236: whether the consequence still has to be derived. -/
def needReason (cc : CC) : Option Lit → SM Bool
  | none => return true
  | some l => do
    let t ← qTrue cc l
    return !t

/-- constraints.cc:237-281: derive the consequence `var <= value` (or `var > value` if `neg`) using the
slack `slack`. -/
def sumDerive (cc : CC) (tagged : Bool) (clit : Lit) (elems : CoVarVec) (var : Var) (slack value : Int) (neg : Bool) : SM Bool := do
  assertS (decide (slack < 0))
  let reason ← pushReason cc [] (-clit)
  match ← sumReason cc (some var) elems slack reason with
  | none => return false
  | some reason => do
    let guess := !reason.isEmpty || tagged
    let l ← updateLiteral cc var value (if guess then none else some (!neg))
    let lr := if neg then -l else l
    if !(← addClauseT cc tagged (reason ++ [lr])) then return false
    else do
      let t ← qTrue cc lr
      assertS (t || cc.level == 0)
      return true

/-- constraints.cc:236-282: the last part of the body of the loop over the variables. -/
def sumConsequence (cc : CC) (tagged : Bool) (clit : Lit) (elems : CoVarVec) (var : Var) (slack value : Int) (neg : Bool) : SM Bool := do
  let l ← hasOrder cc var value neg
  let need ← needReason cc l
  if need then sumDerive cc tagged clit elems var slack value neg
  else return true

/-- The body of the loop at constraints.cc:204-283. -/
def sumStep (cc : CC) (tagged : Bool) (clit : Lit) (elems : CoVarVec) (slack co : Int) (var : Var) : SM Bool := do
  let vs ← getVar var
  if co > 0 then do
    let delta := -floordiv (slack + 1) (-co)
    assertS (decide (slack - co * delta < 0) && decide (0 ≤ slack - co * (delta - 1)))
    if vs.lower + delta ≥ vs.upper then return true
    else sumConsequence cc tagged clit elems var (slack - co * delta) (vs.lower + delta - 1) false
  else do
    let delta := floordiv (slack + 1) co
    assertS (decide (slack - co * delta < 0) && decide (0 ≤ slack - co * (delta + 1)))
    if vs.upper + delta < vs.lower then return true
    else sumConsequence cc tagged clit elems var (slack - co * delta) (vs.upper + delta) true

/-- The loop at constraints.cc:203-283. -/
def sumLoop (cc : CC) (tagged : Bool) (clit : Lit) (elems : CoVarVec) (slack : Int) : CoVarVec → SM Bool
  | [] => return true
  | (co, var) :: es => do
    if !(← sumStep cc tagged clit elems slack co var) then return false
    else sumLoop cc tagged clit elems slack es

/-- constraints.cc:290-312 `check_state_`. -/
def sumCheckState (c : CState) (elems : CoVarVec) : SM Unit := do
  let p ← sumBounds elems
  if p.1 ≠ c.lower then throw .logic
  else if p.2 ≠ c.upper then throw .logic
  else if p.1 > p.2 then throw .logic
  else return

/-- constraints.cc:151-285 `propagate` for a right-hand side. -/
def sumPropagate (cc : CC) (n : Nat) (checkState : Bool) (tagged : Bool) (clit : Lit) (rhs : Int) (elems : CoVarVec) : SM Bool := do
  let c ← getCS n
  whenS checkState (sumCheckState c elems)
  let f ← qFalse cc clit
  assertS (!f)
  if c.upper ≤ rhs then do
    markInactiveS n
    return true
  else if rhs - c.lower < 0 then do
    match ← sumReason cc none elems (rhs - c.lower) [] with
    | none => return false
    | some reason => do
      markInactiveS n
      addClauseT cc tagged (reason ++ [-clit])
  else if !(← qTrue cc clit) then return true
  else sumLoop cc tagged clit elems (rhs - c.lower) elems

/-- constraints.cc:777-783 `rhs` of objectives (constraints.cc:776 `has_rhs`). -/
def minimizeRhs (b : Book) : Res (Option Int) :=
  match b.minimizeBound with
  | none => .ok none
  | some v => if MIN_VAL > v ∨ v > MAX_VAL then .error .overflow else .ok (some v)

/-! ### Distinct constraints (constraints.cc:795-1315) -/

/-- `std::set::extract` (constraints.cc:1278-1279); a missing element would give an empty node handle. -/
def setExtract (p : Int × Nat) (s : List (Int × Nat)) : Res (List (Int × Nat)) :=
  if s.contains p then .ok (s.erase p) else .error .ub

/-- constraints.cc:1275-1290 `update_` for the elements marked dirty. -/
def distinctUpdate (es : List (CoVarVec × Int)) : List Nat → CState → SM CState
  | [], c => return { c with dirty := [] }
  | i :: is, c => do
    match es[i]?, c.assigned[i]? with
    | some e, some old => do
      let lower ← liftRes (setExtract (old.1, i) c.lowerSet)
      let upper ← liftRes (setExtract (old.2, i) c.upperSet)
      let p ← sumBounds e.1
      distinctUpdate es is { c with
        assigned := c.assigned.set i (p.1 + e.2, p.2 + e.2)
        lowerSet := setInsert (p.1 + e.2, i) lower
        upperSet := setInsert (p.2 + e.2, i) upper
        inDirty := c.inDirty.set i false }
    | _, _ => SM.ub

/-- The loop at constraints.cc:1163-1179 over the element that is assigned. -/
def distinctReason (cc : CC) : CoVarVec → List Lit → SM (List Lit)
  | [], reason => return reason
  | (_, var) :: es, reason => do
    let vs ← getVar var
    assertS vs.isAssigned
    let l ← getLiteral cc var vs.upper
    assertS (← qFalse cc (-l))
    let reason ← pushReason cc reason (-l)
    let l ← getLiteral cc var (vs.lower - 1)
    assertS (← qFalse cc l)
    let reason ← pushReason cc reason l
    distinctReason cc es reason

/-- The body of the loop at constraints.cc:1182-1213: the reason and the consequence for a variable. -/
def distinctStep (cc : CC) (up : Bool) (isFact : Bool) (var : Var) (reason : List Lit) : SM (List Lit × Lit) := do
  let vs ← getVar var
  if up then do
    let l ← getLiteral cc var vs.upper
    assertS (← qFalse cc (-l))
    let reason ← pushReason cc reason (-l)
    let l ← updateLiteral cc var (vs.upper - 1) (if isFact && reason.isEmpty then some true else none)
    return (reason, l)
  else do
    let l ← getLiteral cc var (vs.lower - 1)
    assertS (← qFalse cc l)
    let reason ← pushReason cc reason l
    let l ← updateLiteral cc var vs.lower (if isFact && reason.isEmpty then some false else none)
    return (reason, -l)

/-- The loop at constraints.cc:1182-1213 over the element whose bounds are changed; the result is
`none` if the function returns early. -/
def distinctConsequence (cc : CC) (s : Int) (isFact : Bool) : CoVarVec → List Lit → SM (Option (List Lit))
  | [], reason => return some reason
  | (co, var) :: es, reason => do
    let p ← distinctStep cc (decide (s * co > 0)) isFact var reason
    if ← qTrue cc p.2 then return none
    else distinctConsequence cc s isFact es (p.1 ++ [p.2])

/-- constraints.cc:1149-1217 `propagate_`. -/
def distinctPair (cc : CC) (clit : Lit) (es : List (CoVarVec × Int)) (s : Int) (i j : Nat) : SM Bool := do
  match es[i]?, es[j]? with
  | some ei, some ej => do
    let reason ← pushReason cc [] (-clit)
    let reason ← distinctReason cc ei.1 reason
    match ← distinctConsequence cc s (ej.1.length == 1) ej.1 reason with
    | none => return true
    | some reason => addClause cc reason
  | _, _ => SM.ub

/-- The loops at constraints.cc:1111-1122 over the elements with the same bound. -/
def distinctPairs (cc : CC) (clit : Lit) (es : List (CoVarVec × Int)) (s : Int) (idx : Nat) : List Nat → SM Bool
  | [] => return true
  | j :: js => do
    if j = idx then distinctPairs cc clit es s idx js
    else if !(← distinctPair cc clit es s idx j) then return false
    else distinctPairs cc clit es s idx js

/-- The elements in a set of bounds having the given bound (constraints.cc:967,1111,1117). -/
def boundRange (value : Int) (s : List (Int × Nat)) : List Nat := (s.filter (fun p => p.1 == value)).map (·.2)

/-- constraints.cc:1110-1124 `propagate_assigned_`. -/
def distinctAssigned (cc : CC) (c : CState) (clit : Lit) (es : List (CoVarVec × Int)) (value : Int) (idx : Nat) : SM Bool := do
  if !(← distinctPairs cc clit es 1 idx (boundRange value c.upperSet)) then return false
  else distinctPairs cc clit es (-1) idx (boundRange value c.lowerSet)

/-- constraints.cc:967-978, 990-1001: the first assigned element with the given bound. -/
def firstAssigned (c : CState) (js : List Nat) : Option Nat :=
  match js.find? (fun j => (c.assigned.getD j (0, 1)).1 == (c.assigned.getD j (0, 1)).2) with
  | none => none
  | some j => if c.inTodoLower.getD j false || c.inTodoUpper.getD j false then none else some j

/-- The loops at constraints.cc:960-981 (`s = -1`) and 983-1004 (`s = 1`). -/
def distinctTodo (cc : CC) (c : CState) (clit : Lit) (es : List (CoVarVec × Int)) (s : Int) : List Nat → SM Bool
  | [] => return true
  | i :: is => do
    match c.assigned[i]? with
    | none => SM.ub
    | some (lower, upper) => do
      let ok ← (if lower = upper then distinctAssigned cc c clit es lower i
        else match firstAssigned c (if s < 0 then boundRange lower c.lowerSet else boundRange upper c.upperSet) with
          | none => pure true
          | some j => distinctPair cc clit es s j i)
      if !ok then return false
      else distinctTodo cc c clit es s is

/-- constraints.cc:956-1009 `propagate`. -/
def distinctPropagate (cc : CC) (n : Nat) (clit : Lit) (es : List (CoVarVec × Int)) : SM Bool := do
  let c ← getCS n
  let c ← distinctUpdate es c.dirty c
  setCS n c
  if !(← distinctTodo cc c clit es (-1) c.todoLower) then return false
  else if !(← distinctTodo cc c clit es 1 c.todoUpper) then return false
  else do
    let c ← getCS n
    setCS n c.clearTodo
    return true

/-! ### Nonlinear constraints (constraints.cc:1318-1590) -/

/-- constraints.cc:1385-1410 `get_bound`: only the last two components are used by the parts of `propagate`
that have an effect. -/
def getBound (coA : Int) (x y : VarState) : Int × Int :=
  let ll := coA * x.lower * y.lower
  let lu := coA * x.lower * y.upper
  let ul := coA * x.upper * y.lower
  let uu := coA * x.upper * y.upper
  (min (min ll lu) (min ul uu), max (max ll lu) (max ul uu))

/-- constraints.cc:1464-1467: literals for the bounds of the two variables in the product. -/
def productReason (cc : CC) (x y : Var) : SM (List Lit) := do
  let vx ← getVar x
  let vy ← getVar y
  let a ← getLiteral cc x vx.upper
  let b ← getLiteral cc x (vx.lower - 1)
  let c ← getLiteral cc y vy.upper
  let d ← getLiteral cc y (vy.lower - 1)
  return [-a, b, -c, d]

/-- constraints.cc:1468-1474: the literal for the linear part of the conflict. -/
def linearReason (cc : CC) (coB : Int) (z : Var) : SM (List Lit) := do
  if coB = 0 then return []
  else do
    let vz ← getVar z
    if coB < 0 then do
      let l ← getLiteral cc z vz.upper
      return [-l]
    else do
      let l ← getLiteral cc z (vz.lower - 1)
      return [l]

/-- constraints.cc:1489-1519: propagation of the linear part; `lowerT` is the lower bound of the product. -/
def nonlinearZ (cc : CC) (x y : Var) (coB : Int) (z : Var) (rhs lowerT : Int) : SM Bool := do
  if coB = 0 then return true
  else do
    let vz ← getVar z
    if coB > 0 then do
      let bound := floordiv (rhs - lowerT) coB
      if bound < vz.upper then do
        let reason ← productReason cc x y
        let l ← getLiteral cc z bound
        addClause cc (reason ++ [l])
      else return true
    else do
      let bound := ceildiv (rhs - lowerT) coB
      if bound > vz.lower then do
        let reason ← productReason cc x y
        let l ← getLiteral cc z (bound - 1)
        addClause cc (reason ++ [-l])
      else return true

/-- The bounds of the linear part (constraints.cc:1427-1443). -/
def linearBound (coB : Int) (z : Var) : SM (Int × Int) := do
  if coB = 0 then return (0, 0)
  else do
    let vz ← getVar z
    if coB < 0 then return (coB * vz.upper, coB * vz.lower)
    else return (coB * vz.lower, coB * vz.upper)

/-- constraints.cc:1413-1544 `propagate`. The block at the end without effect is omitted. -/
def nonlinearPropagate (cc : CC) (n : Nat) (coA : Int) (x y : Var) (coB : Int) (z : Var) (rhs : Int) : SM Bool := do
  let vx ← getVar x
  let vy ← getVar y
  let t := getBound coA vx vy
  let u ← linearBound coB z
  if t.2 + u.2 ≤ rhs then do
    markInactiveS n
    return true
  else if t.1 + u.1 > rhs then do
    let reason ← productReason cc x y
    let lz ← linearReason cc coB z
    addClause cc (reason ++ lz)
  else nonlinearZ cc x y coB z rhs t.1

/-! ### Disjoint constraints (constraints.cc:1593-1893)

The template parameter of `Algorithm` is a Boolean, which is true for `Lower`. -/

namespace DInterval
/-- constraints.cc:1607-1613 `lower`. -/
def lo (b : Bool) (i : DInterval) : Int := if b then i.left else -i.right
/-- constraints.cc:1615-1621 `upper`. -/
def hi (b : Bool) (i : DInterval) : Int := if b then i.right else -i.left
/-- constraints.cc:1631-1633 `changed`. -/
def changed (i : DInterval) : Bool := i.left != i.lastLeft || i.right != i.lastRight
end DInterval

/-- constraints.cc:1635-1665 `update_bound`; the reason is never empty when it is tested. -/
def disjointBound (cc : CC) (ty : Bool) (reason : List Lit) (i : DInterval) (b : Int) : SM (Bool × DInterval) := do
  let vs ← getVar i.var
  if ty then do
    let l ← getLiteral cc i.var (vs.lower - 1)
    let c ← updateLiteral cc i.var (min (b - 1) vs.upper) none
    let ok ← addClause cc (reason ++ [l, -c])
    return (ok, { i with lastLeft := b })
  else do
    let l ← getLiteral cc i.var vs.upper
    let c ← updateLiteral cc i.var (max (-b - i.weight + 1) (vs.lower - 1)) none
    let ok ← addClause cc (reason ++ [-l, c])
    return (ok, { i with lastRight := -b })

/-- The loop at constraints.cc:1673-1689. -/
def disjointReasons (cc : CC) (ty : Bool) (a : Int) : List DInterval → List Lit → SM (List Lit)
  | [], reason => return reason
  | i :: is, reason => do
    if i.lo ty ≥ a then do
      let vs ← getVar i.var
      let l ← getLiteral cc i.var (vs.lower - 1)
      let u ← getLiteral cc i.var vs.upper
      let reason ← pushReason cc reason l
      let reason ← pushReason cc reason (-u)
      disjointReasons cc ty a is reason
    else disjointReasons cc ty a is reason

/-- constraints.cc:1667-1691 `calculate_reason` for the intervals from `begin` to `j`. -/
def disjointReason (cc : CC) (ty : Bool) (clit : Lit) (a : Int) (is : List DInterval) : SM (List Lit) := do
  let f ← qFixed cc clit
  disjointReasons cc ty a is (if f then [] else [-clit])

/-- The loop at constraints.cc:1697-1708 once the reason has been calculated. -/
def hallLoop (cc : CC) (ty : Bool) (a b : Int) (reason : List Lit) : List DInterval → SM (Bool × List DInterval)
  | [] => return (true, [])
  | j :: js => do
    if j.lo ty ≥ a ∧ j.lo ty ≤ b then do
      let p ← disjointBound cc ty reason j (b + 1)
      if !p.1 then return (false, p.2 :: js)
      else do
        let q ← hallLoop cc ty a b reason js
        return (q.1, p.2 :: q.2)
    else do
      let q ← hallLoop cc ty a b reason js
      return (q.1, j :: q.2)

/-- constraints.cc:1694-1710 `propagate(a, b, i)`: `pre` are the intervals up to `i` and `post` the ones
following it. The reason is calculated when the first interval is found. -/
def disjointHall (cc : CC) (ty : Bool) (clit : Lit) (a b : Int) (pre post : List DInterval) : SM (Bool × List DInterval) := do
  if post.any (fun j => decide (j.lo ty ≥ a) && decide (j.lo ty ≤ b)) then do
    let reason ← disjointReason cc ty clit a pre
    hallLoop cc ty a b reason post
  else return (true, post)

/-- The result of the loop at constraints.cc:1720-1732: the intervals, the value `u(i)`, the lower bound of
the interval `k` and the lower bound of the interval leading to a conflict. -/
structure DScan where
  pre : List DInterval
  u : Int
  k : Option Int
  conflict : Option Int

/-- constraints.cc:1726-1728, 1738-1740: the interval with the least lower bound. -/
def minK (k : Option Int) (l : Int) : Option Int :=
  match k with
  | none => some l
  | some k => if l < k then some l else some k

/-- The loop at constraints.cc:1720-1732 for inserting the interval `i`. -/
def disjointScan (ty : Bool) (i : DInterval) : List DInterval → Int → Option Int → DScan
  | [], u, k => ⟨[], u, k, none⟩
  | j :: js, u, k =>
    if j.lo ty < i.lo ty then
      let j' := { j with u := j.u + i.weight }
      if j'.u > i.hi ty then ⟨j' :: js, u, k, some (j.lo ty)⟩
      else
        let r := disjointScan ty i js u (if j'.u = i.hi ty then minK k (j.lo ty) else k)
        { r with pre := j' :: r.pre }
    else
      let r := disjointScan ty i js (u + j.weight) k
      { r with pre := j :: r.pre }

/-- constraints.cc:1712-1742 `insert` for the interval `i` with the given preceding and following intervals. -/
def disjointInsert (cc : CC) (ty : Bool) (clit : Lit) (pre : List DInterval) (i : DInterval) (post : List DInterval) :
    SM (Bool × List DInterval × List DInterval) := do
  let i := { i with lastLeft := i.left, lastRight := i.right }
  let r := disjointScan ty i pre (i.lo ty + i.weight - 1) none
  let pre := r.pre ++ [{ i with u := r.u }]
  match r.conflict with
  | some a => do
    let reason ← disjointReason cc ty clit a pre
    let ok ← addClause cc reason
    return (ok, pre, post)
  | none =>
    if r.u > i.hi ty then do
      let reason ← disjointReason cc ty clit (i.lo ty) pre
      let ok ← addClause cc reason
      return (ok, pre, post)
    else
      match (if r.u = i.hi ty then minK r.k (i.lo ty) else r.k) with
      | none => return (true, pre, post)
      | some a => do
        let p ← disjointHall cc ty clit a (i.hi ty) pre post
        return (p.1, pre, p.2)

/-- constraints.cc:1744-1751 `propagate`. The intervals are traversed; those already inserted are in `pre`. -/
def disjointGroup (cc : CC) (ty : Bool) (clit : Lit) : Nat → List DInterval → List DInterval → SM (Bool × List DInterval)
  | 0, pre, post => return (true, pre ++ post)
  | _ + 1, pre, [] => return (true, pre)
  | n + 1, pre, i :: post => do
    let p ← disjointInsert cc ty clit pre i post
    if !p.1 then return (false, p.2.1 ++ p.2.2)
    else disjointGroup cc ty clit n p.2.1 p.2.2

/-- constraints.cc:1758-1765: the subsequences of overlapping intervals. The intervals are given in reverse
order; the last components are the current subsequence with the least lower bound. -/
def disjointGroups (ty : Bool) : List DInterval → List DInterval → Int → List (List DInterval)
  | [], cur, _ => [cur]
  | i :: is, cur, mn =>
    if i.hi ty ≥ mn then disjointGroups ty is (i :: cur) (min (i.lo ty) mn)
    else cur :: disjointGroups ty is [i] (i.lo ty)

/-- constraints.cc:1758-1769: propagation of the subsequences, starting with the last one; the last
component is the part of the vector already processed. -/
def disjointRunGroups (cc : CC) (ty : Bool) (clit : Lit) (force : Bool) : List (List DInterval) → List DInterval → SM (Bool × List DInterval)
  | [], done => return (true, done)
  | g :: gs, done => do
    if force || g.any DInterval.changed then do
      let p ← disjointGroup cc ty clit g.length [] g
      if !p.1 then return (false, gs.reverse.flatten ++ p.2 ++ done)
      else disjointRunGroups cc ty clit force gs (p.2 ++ done)
    else disjointRunGroups cc ty clit force gs (g ++ done)

/-- constraints.cc:1753-1771 `run`. -/
def disjointRun (cc : CC) (ty : Bool) (clit : Lit) (force : Bool) (is : List DInterval) : SM (Bool × List DInterval) :=
  match (cc.sort.fn (DInterval.hi ty) is).reverse with
  | [] => return (true, [])
  | i :: rest => disjointRunGroups cc ty clit force (disjointGroups ty rest [i] (i.lo ty)) []

/-- constraints.cc:1841-1845: the intervals are updated. -/
def disjointLoad : List DInterval → SM (List DInterval)
  | [] => return []
  | i :: is => do
    let vs ← getVar i.var
    let is ← disjointLoad is
    return { i with left := vs.lower, right := vs.upper + i.weight - 1 } :: is

/-- constraints.cc:1832-1851 `propagate`. -/
def disjointPropagate (cc : CC) (n : Nat) (clit : Lit) : SM Bool := do
  let c ← getCS n
  let is ← disjointLoad c.intervals
  let p ← disjointRun cc true clit c.forceUpdate is
  let c' ← getCS n
  setCS n { c' with intervals := p.2, forceUpdate := false }
  if !p.1 then return false
  else do
    let q ← disjointRun cc false clit c.forceUpdate p.2
    let c' ← getCS n
    setCS n { c' with intervals := q.2 }
    return q.1

/-- `propagate` of constraint states. -/
def propagateCS (cc : CC) (checkState : Bool) (n : Nat) : SM Bool := do
  let c ← getCS n
  match c.con with
  | .sum l r es => sumPropagate cc n checkState false l r es
  | .minimize _ es => do
    let W ← get
    match ← liftRes (minimizeRhs W.book) with
    | none => return true
    | some r => sumPropagate cc n checkState true TRUE_LIT r es
  | .distinct l es => distinctPropagate cc n l es
  | .nonlinear _ ca x y cb z r => nonlinearPropagate cc n ca x y cb z r
  | .disjoint l _ => disjointPropagate cc n l

end Clingcon
