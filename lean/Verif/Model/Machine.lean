import Verif.Model.Propagate

/-! The arithmetic of linear constraints in `libclingcon/src/constraints.cc` with the types of the code: `val_t` has 32 bits
and `sum_t` has 64 bits. The functions below are those in `Verif/Model/Level.lean` and `Verif/Model/Propagate.lean`, except that
the result of each operation and conversion is checked, and a result that does not fit is undefined behaviour (for conversions,
an implementation-defined value). The expressions in assertions are not checked; they are not evaluated in release builds. -/
namespace Clingcon

/-- A value of type `sum_t` (base.hh:43). -/
def fit64 (x : Int) : SM Int := if Limits.sum.Fits x then pure x else SM.ub
/-- A value of type `val_t` (base.hh:42). -/
def fit32 (x : Int) : SM Int := if Limits.val.Fits x then pure x else SM.ub

/-- util.hh:79-86 `floordiv<sum_t>`: the quotient computed by `std::div` and the result have to fit. -/
def floordiv64 (n m : Int) : SM Int := do
  assertS (decide (m ≠ 0))
  let q ← fit64 (n.tdiv m)
  if (decide (n < 0) ^^ decide (m < 0)) && n.tmod m != 0 then fit64 (q - 1) else return q

/-- constraints.cc:64-77 and 290-303: the loops computing the bounds of a sum, where `lower` and `upper` are the sums so far. -/
def sumBounds64 : CoVarVec → Int → Int → SM (Int × Int)
  | [], lower, upper => return (lower, upper)
  | (co, v) :: es, lower, upper => do
    let vs ← getVar v
    let a ← fit64 (vs.lower * co)
    let b ← fit64 (vs.upper * co)
    if co > 0 then do
      let lower ← fit64 (lower + a)
      let upper ← fit64 (upper + b)
      sumBounds64 es lower upper
    else do
      let lower ← fit64 (lower + b)
      let upper ← fit64 (upper + a)
      sumBounds64 es lower upper

/-- constraints.cc:335-349, see `refineLower`. Adding one to the value of an order literal (338) is not checked because these are values
of variables below the upper bound. -/
def refineLower64 (cc : CC) (var : Var) (co slack litReason current value : Int) : SM (Bool × Lit × Int × Int) := do
  let vs ← getVar var
  let v ← fit32 (value - 1)
  match vs.orderLitGe v with
  | some (k, l) =>
    if k + 1 < current then do
      let d ← fit64 (k + 1 - current)
      let x ← fit64 (co * d)
      let slack ← fit64 (slack - x)
      assertS (decide (slack < 0))
      if ← qFalse cc l then return (true, l, slack, k + 1)
      else do
        assertS (← qTrue cc l)
        let ret ← addClause cc [litReason, -l]
        return (ret, l, slack, k + 1)
    else return (true, litReason, slack, current)
  | none => return (true, litReason, slack, current)

/-- constraints.cc:355-365, see `introduceLower`. -/
def introduceLower64 (cc : CC) (var : Var) (co value : Int) (p : Bool × Lit × Int × Int) : SM (Bool × Lit × Int) := do
  let ll ← qLitLevel cc p.2.1
  if p.1 && cc.conf.refineIntroduce && ll == cc.level && decide (value < p.2.2.2) then do
    let d ← fit64 (value - p.2.2.2)
    let x ← fit64 (co * d)
    let slack ← fit64 (p.2.2.1 - x)
    assertS (decide (slack < 0))
    let v ← fit32 (value - 1)
    let refined ← getLiteral cc var v
    assertS (!(← qTrue cc refined))
    if ← qFalse cc refined then return (true, refined, slack)
    else do
      let ret ← addClause cc [p.2.1, -refined]
      return (ret, refined, slack)
  else return (p.1, p.2.1, p.2.2.1)

/-- constraints.cc:321-367, see `reasonLower`. -/
def reasonLower64 (cc : CC) (var : Var) (co slack : Int) : SM (Bool × Lit × Int) := do
  let vs ← getVar var
  let c ← fit32 (vs.lower - 1)
  let litReason ← getLiteral cc var c
  assertS (← qFalse cc litReason)
  if cc.conf.refineReasons then do
    let t ← fit64 (slack + co)
    if decide (t < 0) && decide (cc.level > 0) then do
      let s ← fit64 (slack + 1)
      let m ← fit32 (-co)
      let q ← floordiv64 s m
      let d ← fit64 (-q)
      let x ← fit64 (vs.lower + d)
      if max x vs.minBound < vs.lower then do
        let p ← refineLower64 cc var co slack litReason vs.lower (max x vs.minBound)
        introduceLower64 cc var co (max x vs.minBound) p
      else return (true, litReason, slack)
    else return (true, litReason, slack)
  else return (true, litReason, slack)

/-- constraints.cc:377-389, see `refineUpper`. -/
def refineUpper64 (cc : CC) (var : Var) (co slack litReason current value : Int) : SM (Bool × Lit × Int × Int) := do
  let vs ← getVar var
  let v ← fit32 value
  match vs.orderLitLe v with
  | some (k, l) =>
    if k > current then do
      let d ← fit64 (k - current)
      let x ← fit64 (co * d)
      let slack ← fit64 (slack - x)
      assertS (decide (slack < 0))
      if ← qFalse cc (-l) then return (true, -l, slack, k)
      else do
        assertS (← qTrue cc (-l))
        let ret ← addClause cc [litReason, l]
        return (ret, -l, slack, k)
    else return (true, litReason, slack, current)
  | none => return (true, litReason, slack, current)

/-- constraints.cc:391-401, see `introduceUpper`. -/
def introduceUpper64 (cc : CC) (var : Var) (co value : Int) (p : Bool × Lit × Int × Int) : SM (Bool × Lit × Int) := do
  let ll ← qLitLevel cc p.2.1
  if p.1 && cc.conf.refineIntroduce && ll == cc.level && decide (value > p.2.2.2) then do
    let d ← fit64 (value - p.2.2.2)
    let x ← fit64 (co * d)
    let slack ← fit64 (p.2.2.1 - x)
    assertS (decide (slack < 0))
    let v ← fit32 value
    let l ← getLiteral cc var v
    assertS (!(← qTrue cc (-l)))
    if ← qFalse cc (-l) then return (true, -l, slack)
    else do
      let ret ← addClause cc [p.2.1, l]
      return (ret, -l, slack)
  else return (p.1, p.2.1, p.2.2.1)

/-- constraints.cc:368-403, see `reasonUpper`. -/
def reasonUpper64 (cc : CC) (var : Var) (co slack : Int) : SM (Bool × Lit × Int) := do
  let vs ← getVar var
  let c ← fit32 vs.upper
  let l ← getLiteral cc var c
  assertS (← qFalse cc (-l))
  if cc.conf.refineReasons then do
    let t ← fit64 (slack - co)
    if decide (t < 0) && decide (cc.level > 0) then do
      let s ← fit64 (slack + 1)
      let d ← floordiv64 s co
      let x ← fit64 (vs.upper + d)
      if min x vs.maxBound > vs.upper then do
        let p ← refineUpper64 cc var co slack (-l) vs.upper (min x vs.maxBound)
        introduceUpper64 cc var co (min x vs.maxBound) p
      else return (true, -l, slack)
    else return (true, -l, slack)
  else return (true, -l, slack)

/-- constraints.cc:314-406, see `calculateReason`. -/
def calculateReason64 (cc : CC) (var : Var) (co slack : Int) : SM (Bool × Lit × Int) := do
  let p ← (if co > 0 then reasonLower64 cc var co slack else reasonUpper64 cc var co slack)
  let f ← qFalse cc p.2.1
  assertS (!p.1 || f)
  return p

/-- constraints.cc:174-187 and 240-257, see `sumReason`. -/
def sumReason64 (cc : CC) (skip : Option Var) : CoVarVec → Int → List Lit → SM (Option (List Lit))
  | [], _, reason => return some reason
  | (co, var) :: es, slack, reason => do
    if skip = some var then sumReason64 cc skip es slack reason
    else do
      let p ← calculateReason64 cc var co slack
      if !p.1 then return none
      else do
        let reason ← pushReason cc reason p.2.1
        sumReason64 cc skip es p.2.2 reason

/-- constraints.cc:237-281, see `sumDerive`. -/
def sumDerive64 (cc : CC) (tagged : Bool) (clit : Lit) (elems : CoVarVec) (var : Var) (slack value : Int) (neg : Bool) : SM Bool := do
  assertS (decide (slack < 0))
  let reason ← pushReason cc [] (-clit)
  match ← sumReason64 cc (some var) elems slack reason with
  | none => return false
  | some reason => do
    let guess := !reason.isEmpty || tagged
    let l ← updateLiteral cc var value (if guess then none else some (!neg))
    let lr := if neg then -l else l
    if !(← addClauseT cc tagged (reason ++ [lr])) then return false
    else do
      let t ← qTrue cc lr
      assertS (t || cc.level == 0)
      return true

/-- constraints.cc:236-282, see `sumConsequence`; the slack at 237 is `slack - co * delta`. -/
def sumConsequence64 (cc : CC) (tagged : Bool) (clit : Lit) (elems : CoVarVec) (var : Var) (slack co delta value : Int) (neg : Bool) : SM Bool := do
  let l ← hasOrder cc var value neg
  let need ← needReason cc l
  if need then do
    let x ← fit64 (co * delta)
    let slack ← fit64 (slack - x)
    sumDerive64 cc tagged clit elems var slack value neg
  else return true

/-- constraints.cc:204-283, see `sumStep`. -/
def sumStep64 (cc : CC) (tagged : Bool) (clit : Lit) (elems : CoVarVec) (slack co : Int) (var : Var) : SM Bool := do
  let vs ← getVar var
  if co > 0 then do
    let s ← fit64 (slack + 1)
    let m ← fit32 (-co)
    let q ← floordiv64 s m
    let delta ← fit64 (-q)
    let value ← fit64 (vs.lower + delta)
    assertS (decide (slack - co * delta < 0) && decide (0 ≤ slack - co * (delta - 1)))
    if value ≥ vs.upper then return true
    else do
      let v ← fit32 (value - 1)
      sumConsequence64 cc tagged clit elems var slack co delta v false
  else do
    let s ← fit64 (slack + 1)
    let delta ← floordiv64 s co
    let value ← fit64 (vs.upper + delta)
    assertS (decide (slack - co * delta < 0) && decide (0 ≤ slack - co * (delta + 1)))
    if value < vs.lower then return true
    else do
      let v ← fit32 value
      sumConsequence64 cc tagged clit elems var slack co delta v true

/-- constraints.cc:203-283, see `sumLoop`. -/
def sumLoop64 (cc : CC) (tagged : Bool) (clit : Lit) (elems : CoVarVec) (slack : Int) : CoVarVec → SM Bool
  | [] => return true
  | (co, var) :: es => do
    if !(← sumStep64 cc tagged clit elems slack co var) then return false
    else sumLoop64 cc tagged clit elems slack es

/-- constraints.cc:290-312, see `sumCheckState`. -/
def sumCheckState64 (c : CState) (elems : CoVarVec) : SM Unit := do
  let p ← sumBounds64 elems 0 0
  if p.1 ≠ c.lower then throw .logic
  else if p.2 ≠ c.upper then throw .logic
  else if p.1 > p.2 then throw .logic
  else return

/-- constraints.cc:151-285, see `sumPropagate`. -/
def sumPropagate64 (cc : CC) (n : Nat) (checkState : Bool) (tagged : Bool) (clit : Lit) (rhs : Int) (elems : CoVarVec) : SM Bool := do
  let c ← getCS n
  whenS checkState (sumCheckState64 c elems)
  let f ← qFalse cc clit
  assertS (!f)
  if c.upper ≤ rhs then do
    markInactiveS n
    return true
  else do
    let slack ← fit64 (rhs - c.lower)
    if slack < 0 then do
      match ← sumReason64 cc none elems slack [] with
      | none => return false
      | some reason => do
        markInactiveS n
        addClauseT cc tagged (reason ++ [-clit])
    else if !(← qTrue cc clit) then return true
    else sumLoop64 cc tagged clit elems slack elems

/-- constraints.cc:95-103, see `CState.update`. -/
def sumUpdate64 (i diff lower upper : Int) : SM (Int × Int) := do
  let x ← fit64 (i * diff)
  assertS (decide (x ≠ 0))
  if x < 0 then do
    let upper ← fit64 (upper + x)
    return (lower, upper)
  else do
    let lower ← fit64 (lower + x)
    return (lower, upper)

/-- constraints.cc:86-93, see `CState.undo`. -/
def sumUndo64 (i diff lower upper : Int) : SM (Int × Int) := do
  let x ← fit64 (i * diff)
  if x > 0 then do
    let lower ← fit64 (lower - x)
    return (lower, upper)
  else do
    let upper ← fit64 (upper - x)
    return (lower, upper)

end Clingcon
