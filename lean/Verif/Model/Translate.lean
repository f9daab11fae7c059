import Verif.Model.Propagate
import Verif.Model.IntervalSet

/-! Model of the translation of constraints: the functions `translate` of constraint states
(`libclingcon/src/constraints.cc:420-713, 723-792, 841-927, 1045-1110`) and `Solver::translate`
(`libclingcon/src/solver.cc:565-641`).

Clauses and weight constraints are recorded in the log when they are added; that the clause creator
collects and commits them later is modelled in `Model/InitClause.lean`. Sums are unbounded integers. -/
namespace Clingcon

/-- The members of `Config` used (base.hh:227-240). `ratioOk estimate n` is the comparison of
`literal_variable_ratio_` with `weight_constraint_ratio` in floating point arithmetic
(constraints.cc:436,491); `sort` orders the elements of new constraints (constraints.hh:89-95); `translated`
gives the statistic `translate_clauses` (base.hh:318) for the calls made so far. -/
structure TConf where
  ratioOk : Int → Int → Bool
  clauseTotal : Nat
  clauseLimit : Nat
  distinctLimit : Nat
  translateMinimize : Nat
  literalsOnly : Bool
  orderClauses : Bool
  sort : CoVarVec → CoVarVec
  translated : List SEv → Nat

/-- base.hh:338-357 `add_weight_constraint`: the constraint is dropped if its literal makes it hold. -/
def addWeight (cc : CC) (lit : Lit) (wlits : List (Lit × Int)) (bound type : Int) : SM Bool := do
  let t ← qTrue cc lit
  let f ← qFalse cc lit
  if t && decide (type < 0) then return true
  else if !t && f && decide (type > 0) then return true
  else do
    modify (fun W => { W with log := .weight lit wlits bound type :: W.log })
    return true

/-- base.hh:360 `add_minimize`. -/
def addMinimize (lit : Lit) (weight : Int) : SM Unit :=
  modify (fun W => { W with log := .minimize lit weight :: W.log })

/-! ### Linear constraints -/

/-- The order literals for the values `i, ..., i + n - 1` of a variable: loops of the form
`for (i = b; i != e; ++i)` calling `get_literal` (constraints.cc:508, 515). -/
def litRange (cc : CC) (var : Var) : Nat → Int → SM (List Lit)
  | 0, _ => return []
  | n + 1, i => do
    let l ← getLiteral cc var i
    let ls ← litRange cc var n (i + 1)
    return l :: ls

/-- constraints.cc:505-507: the value up to which order literals are needed. -/
def cutUpper (slack co lo : Int) : Int := floordiv (slack + co * lo) co
/-- constraints.cc:512-514. -/
def cutLower (slack co hi : Int) : Int := -floordiv (slack + co * hi) (-co)

/-- constraints.cc:468-492 `literal_variable_ratio_`: the number of literals and of variables that are not
assigned. -/
def ratioParts (slack : Int) : CoVarVec → SM (Int × Int)
  | [] => return (0, 0)
  | (co, var) :: es => do
    let vs ← getVar var
    if co > 0 then do
      assertS (decide (cutUpper slack co vs.lower ≥ vs.lower))
      let p ← ratioParts slack es
      return (min (cutUpper slack co vs.lower + 1) vs.upper - vs.lower + p.1, (if vs.lower ≠ vs.upper then 1 else 0) + p.2)
    else do
      assertS (decide (cutLower slack co vs.upper ≤ vs.upper))
      let p ← ratioParts slack es
      return (vs.upper - max (cutLower slack co vs.upper - 1) vs.lower + p.1, (if vs.lower ≠ vs.upper then 1 else 0) + p.2)

/-- constraints.cc:501-519: the weighted literals. A loop whose start is behind its end does not terminate
properly. -/
def weightLits (cc : CC) (slack : Int) : CoVarVec → SM (List (Lit × Int))
  | [] => return []
  | (co, var) :: es => do
    let vs ← getVar var
    if co > 0 then do
      assertS (decide (cutUpper slack co vs.lower ≥ vs.lower))
      let e := min (cutUpper slack co vs.lower + 1) vs.upper
      assertS (decide (vs.lower ≤ e))
      let ls ← litRange cc var (e - vs.lower).toNat vs.lower
      let r ← weightLits cc slack es
      return ls.map (fun l => (-l, co)) ++ r
    else do
      assertS (decide (cutLower slack co vs.upper ≤ vs.upper))
      let b := max (cutLower slack co vs.upper - 1) vs.lower
      assertS (decide (b ≤ vs.upper))
      let ls ← litRange cc var (vs.upper - b).toNat b
      let r ← weightLits cc slack es
      return ls.map (fun l => (l, -co)) ++ r

/-- constraints.cc:496-533 `weight_translate_`. -/
def weightTranslate (cc : CC) (lit : Lit) (slack : Int) (es : CoVarVec) : SM (Bool × Bool) := do
  let ws ← weightLits cc slack es
  if (-2147483648 : Int) < slack ∧ slack < 2147483647 then do
    let ret ← addWeight cc lit ws slack 1
    return (ret, true)
  else return (true, false)

/-- The tuples of `todo` in `clause_estimate_` (constraints.cc:536). -/
structure EFrame where
  i : Nat
  n : Int
  lower : Int
  upper : Int

/-- constraints.cc:575-589: the range of values of the next element and the new bounds. -/
def estSplit (co lo hi lower upper : Int) : Int × Int × Int × Int :=
  if co > 0 then
    let vl := max lo (floordiv (upper + co * hi) co + 1)
    let vu := min hi (floordiv (lower + co * lo) co + 1)
    (vl, vu, lower - co * (vu - lo), upper + co * (hi - vu))
  else
    let vl := max lo (-floordiv (lower + co * hi) (-co) - 1)
    let vu := min hi (-floordiv (upper + co * lo) (-co) - 1)
    (vl, vu, lower - co * (vl - hi), upper + co * (lo - vl))

/-- constraints.cc:547-557: the frames and the estimate after taking the next value of the frame on top. -/
def estTake (es : CoVarVec) (f : EFrame) (fs : List EFrame) (est : Int) : SM (List EFrame × Int) :=
  if f.i > 0 then
    match es[f.i - 1]? with
    | none => SM.ub
    | some e =>
      if e.1 > 0 then return (⟨f.i, f.n - 1, f.lower + e.1, f.upper + e.1⟩ :: fs, est - 1)
      else return (⟨f.i, f.n - 1, f.lower - e.1, f.upper - e.1⟩ :: fs, est - 1)
  else return (fs, est)

/-- constraints.cc:539-596: the body of the loop of `clause_estimate_`; `none` stands for returning `false`. -/
def estStep (es : CoVarVec) (maximum : Int) (f : EFrame) (fs : List EFrame) (est : Int) : SM (Option (List EFrame × Int)) :=
  if f.n ≤ 0 then return some (fs, est)
  else do
    let p ← estTake es f fs est
    if f.lower < 0 then
      if p.2 + 1 ≥ maximum then return none else return some (p.1, p.2 + 1)
    else do
      assertS (decide (f.upper < 0))
      match es[f.i]? with
      | none => SM.ub
      | some e => do
        let vs ← getVar e.2
        let s := estSplit e.1 vs.lower vs.upper f.lower f.upper
        let n := s.2.1 - s.1 + 1
        if p.2 + n ≥ maximum then return none
        else return some (⟨f.i + 1, n, s.2.2.1, s.2.2.2⟩ :: p.1, p.2 + n)

/-- constraints.cc:539-598: the loop of `clause_estimate_`. The first argument bounds the number of
iterations; the outcome `Err.logic` stands for exceeding it. -/
def estLoop (es : CoVarVec) (maximum : Int) : Nat → List EFrame → Int → SM Bool
  | _, [], _ => return true
  | 0, _ :: _, _ => throw .logic
  | k + 1, f :: fs, est => do
    let r ← estStep es maximum f fs est
    match r with
    | none => return false
    | some p => estLoop es maximum k p.1 p.2

/-- constraints.cc:535-599 `clause_estimate_`. -/
def clauseEstimate (fuel : Nat) (es : CoVarVec) (lower upper maximum : Int) : SM Bool :=
  estLoop es maximum fuel [⟨0, 1, lower, upper⟩] 0

/-- The tuples of `todo` in `clause_translate_` (constraints.cc:604). -/
structure CFrame where
  i : Nat
  j : Nat
  vl : Int
  vu : Int
  lower : Int
  upper : Int

/-- constraints.cc:685-703. -/
def clauseSplit (co lo hi lower upper : Int) : Int × Int × Int × Int :=
  if co > 0 then
    let vl := max (lo - 1) (floordiv (upper + co * hi) co)
    let vu := min (hi - 1) (floordiv (lower + co * lo) co)
    (vl, vu, lower - co * (vu - lo + 1), upper + co * (hi - vu - 1))
  else
    let vl := max lo (-floordiv (lower + co * hi) (-co) - 1)
    let vu := min hi (-floordiv (upper + co * lo) (-co) - 1)
    (vl, vu, lower - co * (vl - hi), upper + co * (lo - vl))

/-- constraints.cc:653-668: the frames after taking the next value of the frame on top, and the literal. -/
def clauseTake (cc : CC) (es : CoVarVec) (clit : Lit) (f : CFrame) (fs : List CFrame) : SM (List CFrame × Lit) :=
  if f.i > 0 then
    match es[f.i - 1]? with
    | none => SM.ub
    | some e =>
      if e.1 > 0 then do
        let l ← getLiteral cc e.2 f.vu
        return (⟨f.i, f.j, f.vl, f.vu - 1, f.lower + e.1, f.upper + e.1⟩ :: fs, l)
      else do
        let l ← getLiteral cc e.2 f.vl
        return (⟨f.i, f.j, f.vl + 1, f.vu, f.lower - e.1, f.upper - e.1⟩ :: fs, -l)
  else return (fs, clit)

/-- constraints.cc:670-673: writing a literal to the clause. -/
def clausePut (clause : List Lit) (j : Nat) (l : Lit) : SM (List Lit × Nat) :=
  if l ≠ -TRUE_LIT then do
    assertS (decide (j < clause.length))
    return (clause.set j l, j + 1)
  else return (clause, j)

/-- constraints.cc:643-709: the body of the loop of `clause_translate_`; `none` stands for returning
`false`. -/
def clauseStep (cc : CC) (es : CoVarVec) (clit : Lit) (litsOnly : Bool) (f : CFrame) (fs : List CFrame) (clause : List Lit) :
    SM (Option (List CFrame × List Lit)) :=
  if f.vl > f.vu then return some (fs, clause)
  else do
    let p ← clauseTake cc es clit f fs
    let q ← clausePut clause f.j p.2
    if f.lower < 0 then
      if litsOnly then return some (p.1, q.1)
      else do
        let ret ← addClause cc (q.1.take q.2)
        return if ret then some (p.1, q.1) else none
    else do
      assertS (decide (f.upper < 0))
      match es[f.i]? with
      | none => SM.ub
      | some e => do
        let vs ← getVar e.2
        let s := clauseSplit e.1 vs.lower vs.upper f.lower f.upper
        assertS (decide (vs.lower ≤ s.2.1 + 1))
        assertS (decide (s.1 ≤ vs.upper))
        return some (⟨f.i + 1, q.2, s.1, s.2.1, s.2.2.1, s.2.2.2⟩ :: p.1, q.1)

/-- constraints.cc:642-710: the loop of `clause_translate_`. -/
def clauseLoop (cc : CC) (es : CoVarVec) (clit : Lit) (litsOnly : Bool) : Nat → List CFrame → List Lit → SM Bool
  | _, [], _ => return true
  | 0, _ :: _, _ => throw .logic
  | k + 1, f :: fs, clause => do
    let r ← clauseStep cc es clit litsOnly f fs clause
    match r with
    | none => return false
    | some p => clauseLoop cc es clit litsOnly k p.1 p.2

/-- constraints.cc:601-713 `clause_translate_`. -/
def clauseTranslate (cc : CC) (fuel : Nat) (lit : Lit) (es : CoVarVec) (lower upper : Int) (litsOnly : Bool) : SM Bool := do
  let f ← qFalse cc (-lit)
  clauseLoop cc es (if f then -TRUE_LIT else -lit) litsOnly fuel [⟨0, 0, 0, 0, lower, upper⟩] (List.replicate (es.length + 1) 0)

/-- constraints.cc:420-449 `translate` of linear constraints. -/
def sumTranslate (cc : CC) (tc : TConf) (fuel : Nat) (c : CState) (lit : Lit) (rhs : Int) (es : CoVarVec) : SM (Bool × Bool) := do
  let f ← qFalse cc lit
  if f || decide (c.upper ≤ rhs) then return (true, true)
  else do
    assertS (decide (rhs - c.lower ≥ 0))
    let p ← ratioParts (rhs - c.lower) es
    if tc.ratioOk p.1 p.2 then weightTranslate cc lit (rhs - c.lower) es
    else do
      let W ← get
      if tc.translated W.log < tc.clauseTotal then do
        let t ← clauseEstimate fuel es (rhs - c.lower) (rhs - c.upper) tc.clauseLimit
        if t then do
          let ret ← clauseTranslate cc fuel lit es (rhs - c.lower) (rhs - c.upper) tc.literalsOnly
          return (ret, !tc.literalsOnly)
        else return (true, false)
      else return (true, false)

/-! ### Objectives -/

/-- constraints.cc:734-741 `required_literals`. -/
def requiredLiterals : CoVarVec → SM Int
  | [] => return 0
  | (_, var) :: es => do
    let vs ← getVar var
    let n ← requiredLiterals es
    return vs.maxBound - vs.minBound - 1 + n

/-- constraints.cc:762-764: the loop over the values of a variable. -/
def minimizeValues (cc : CC) (co : Int) (var : Var) : Nat → Int → SM Unit
  | 0, _ => return
  | n + 1, value => do
    let l ← getLiteral cc var value
    addMinimize (-l) co
    minimizeValues cc co var n (value + 1)

/-- constraints.cc:759-765: the loop over the elements of an objective. -/
def minimizeElems (cc : CC) : CoVarVec → SM Unit
  | [] => return
  | (co, var) :: es => do
    let vs ← getVar var
    let w ← liftRes (safeMul Limits.val co vs.minBound)
    addMinimize TRUE_LIT w
    minimizeValues cc co var (vs.maxBound - vs.minBound).toNat vs.minBound
    minimizeElems cc es

/-- constraints.cc:744-768 `translate` of objectives. -/
def minimizeTranslate (cc : CC) (tc : TConf) (adjust : Int) (es : CoVarVec) : SM (Bool × Bool) := do
  let W ← get
  let n ← requiredLiterals es
  if W.book.translateMinimize || tc.translateMinimize == 4294967295 || decide (n < tc.translateMinimize) then do
    modify (fun W => { W with book.translateMinimize := true })
    addMinimize TRUE_LIT (-adjust)
    minimizeElems cc es
    return (true, true)
  else return (true, false)

/-! ### Distinct constraints -/

/-- constraints.cc:1077-1083: the union of the ranges of the terms, or nothing if one is too large. -/
def estIntervals : List (Int × Int) → IntervalSet → Option IntervalSet
  | [], s => some s
  | (l, u) :: as, s => if l < MIN_VAL ∨ u > MAX_VAL then none else estIntervals as (s.add l u)

/-- constraints.cc:1072-1089 `estimate_`. -/
def distinctEstimate (assigned : List (Int × Int)) (maximum : Nat) : Bool :=
  match estIntervals assigned [] with
  | none => false
  | some s => decide ((s.map (fun p => p.2 - p.1)).sum < maximum)

/-- constraints.cc:1100-1105: the loop over the values of a variable, where `add` is the distance from the
least value. -/
def domainValues (cur : IntervalSet) (step : Int) : Nat → Int → IntervalSet → IntervalSet
  | 0, _, s => s
  | n + 1, add, s => domainValues cur step n (add + step) (cur.foldl (fun s p => s.add (p.1 + add) (p.2 + add)) s)

/-- constraints.cc:1096-1106: the loop over the variables of a term. -/
def domainVars : CoVarVec → IntervalSet → SM IntervalSet
  | [], s => return s
  | (co, var) :: es, s => do
    let vs ← getVar var
    assertS (decide (vs.lower ≤ vs.upper))
    domainVars es (domainValues s co.natAbs (vs.upper - vs.lower).toNat co.natAbs s)

/-- constraints.cc:1092-1109 `domain_`. -/
def termDomain (es : CoVarVec) (lower : Int) : SM IntervalSet := domainVars es (IntervalSet.add [] lower (lower + 1))

/-- constraints.cc:851-857: the domains of all terms. -/
def termDomains : List (CoVarVec × Int) → List (Int × Int) → SM (List IntervalSet)
  | [], _ => return []
  | _ :: _, [] => SM.ub
  | e :: es, a :: as => do
    let d ← termDomain e.1 a.1
    let ds ← termDomains es as
    return d :: ds

/-- `++counts[value]` for a `std::map`, which is a list sorted by keys (constraints.cc:854). -/
def countValue (v : Int) : List (Int × Nat) → List (Int × Nat)
  | [] => [(v, 1)]
  | (k, n) :: m => if v < k then (v, 1) :: (k, n) :: m else if v = k then (k, n + 1) :: m else (k, n) :: countValue v m

/-- constraints.cc:849-858: how often values occur in the domains. -/
def countAll (ds : List IntervalSet) : List (Int × Nat) :=
  ds.foldl (fun m d => d.values.foldl (fun m v => countValue v m) m) []

/-- The value of a key (constraints.cc:867). -/
def countOf (m : List (Int × Nat)) (v : Int) : Nat :=
  match m.find? (fun p => p.1 == v) with
  | some p => p.2
  | none => 0

/-- `DiffElement` (constraints.cc:796): constant, coefficient and variable. -/
structure DiffElem where
  fixed : Int
  co : Int
  var : Var
  deriving DecidableEq

/-- constraints.cc:1045-1066 `var_`: the constraints are those to be added. -/
def termRep (tc : TConf) (e : CoVarVec × Int) (a : Int × Int) : SM (DiffElem × List Constr) :=
  match e.1 with
  | [] => SM.ub
  | [(co, var)] => return (⟨e.2, co, var⟩, [])
  | es => do
    let var ← addVar a.1 a.2
    let s := (-1, var) :: es
    return (⟨0, 1, var⟩, [.sum TRUE_LIT (-e.2) (tc.sort s), .sum TRUE_LIT e.2 (tc.sort (s.map (fun p => (-p.1, p.2))))])

/-- constraints.cc:862-876: variables for the terms. -/
def termVars (tc : TConf) (counts : List (Int × Nat)) : List (CoVarVec × Int) → List (Int × Int) → List IntervalSet → SM (List DiffElem × List Constr)
  | [], _, _ => return ([], [])
  | e :: es, a :: as, d :: ds => do
    if !e.1.isEmpty && d.values.any (fun v => decide (countOf counts v > 1)) then do
      let p ← termRep tc e a
      let q ← termVars tc counts es as ds
      return (p.1 :: q.1, p.2 ++ q.2)
    else do
      let q ← termVars tc counts es as ds
      return (⟨e.2, 1, INVALID_VAR⟩ :: q.1, q.2)
  | _, _, _ => SM.ub

/-- constraints.cc:894-917: the literal for a term having a value; nothing if there was a conflict. -/
def equalLit (cc : CC) (e : DiffElem) (value : Int) : SM (Option Lit) :=
  if e.var ≠ INVALID_VAR then do
    let adjust := Int.tdiv (value - e.fixed) e.co
    let a ← getLiteral cc e.var adjust
    let b' ← getLiteral cc e.var (adjust - 1)
    let b := -b'
    if a = TRUE_LIT then return some b
    else if b = -TRUE_LIT then return some a
    else do
      let lit ← newLit
      let r ← addClause cc [-a, -b, lit]
      if !r then return none
      else do
        let r ← addClause cc [a, -lit]
        if !r then return none
        else do
          let r ← addClause cc [b, -lit]
          if !r then return none else return some lit
  else return some TRUE_LIT

/-- constraints.cc:886-919: the literals for a value. -/
def valueLits (cc : CC) (value : Int) : List IntervalSet → List DiffElem → SM (Option (List (Lit × Int)))
  | [], _ => return some []
  | _ :: _, [] => SM.ub
  | d :: ds, e :: es => do
    if d.contains value then do
      let l ← equalLit cc e value
      match l with
      | none => return none
      | some l => do
        let r ← valueLits cc value ds es
        match r with
        | none => return none
        | some r => return some ((l, 1) :: r)
    else valueLits cc value ds es

/-- constraints.cc:878-925: the weight constraints. -/
def valueConstraints (cc : CC) (lit : Lit) (ds : List IntervalSet) (es : List DiffElem) : List (Int × Nat) → SM Bool
  | [] => return true
  | (value, n) :: m => do
    if n ≤ 1 then valueConstraints cc lit ds es m
    else do
      let r ← valueLits cc value ds es
      match r with
      | none => return false
      | some ws => do
        assertS (decide (ws.length > 1))
        let ret ← addWeight cc lit ws 1 1
        if !ret then return false else valueConstraints cc lit ds es m

/-- constraints.cc:841-928 `translate` of distinct constraints; the list are the constraints added. -/
def distinctTranslate (cc : CC) (tc : TConf) (c : CState) (lit : Lit) (es : List (CoVarVec × Int)) : SM ((Bool × Bool) × List Constr) := do
  if !distinctEstimate c.assigned tc.distinctLimit then return ((true, false), [])
  else do
    let ds ← termDomains es c.assigned
    let counts := countAll ds
    let p ← termVars tc counts es c.assigned ds
    let ret ← valueConstraints cc lit ds p.1 counts
    return ((ret, ret), p.2)

/-! ### All constraints -/

/-- `translate` of constraint states (constraints.cc:420, 744, 841, 1366, 1812). -/
def translateOne (cc : CC) (tc : TConf) (fuel : Nat) (n : Nat) : SM ((Bool × Bool) × List Constr) := do
  let c ← getCS n
  match c.con with
  | .sum lit rhs es => do
    let r ← sumTranslate cc tc fuel c lit rhs es
    return (r, [])
  | .minimize adjust es => do
    let r ← minimizeTranslate cc tc adjust es
    return (r, [])
  | .distinct lit es => distinctTranslate cc tc c lit es
  | .disjoint _ _ => return ((true, false), [])
  | .nonlinear _ _ _ _ _ _ _ => return ((true, false), [])

/-- The elements of the vector of constraints: constraints that have a state, and new ones. -/
inductive TCon where
  | old (n : Nat)
  | new (c : Constr)
  deriving DecidableEq

/-- `add_constraint` (solver.cc:535-546): constraints that have a state are not added again. -/
def TCon.add : TCon → SM Nat
  | .old n => return n
  | .new c => addConstraint c

/-- `std::swap(constraints[idx], constraints[jdx])` (solver.cc:583). -/
def swapAt (l : List TCon) (i j : Nat) : List TCon :=
  match l[i]?, l[j]? with
  | some a, some b => (l.set i b).set j a
  | _, _ => l

/-- solver.cc:568-588: the loop over the vector `v`; new constraints are appended to it. The result is
nothing in case of a conflict, and the vector and `jdx` otherwise. -/
def translateLoop (cc : CC) (tc : TConf) (fuel : Nat) : Nat → Nat → Nat → List TCon → SM (Option (List TCon × Nat))
  | 0, idx, jdx, v => if idx < v.length then throw .logic else return some (v, jdx)
  | k + 1, idx, jdx, v =>
    match v[idx]? with
    | none => return some (v, jdx)
    | some t => do
      let n ← t.add
      let r ← translateOne cc tc fuel n
      let v := v.set idx (.old n) ++ r.2.map .new
      if !r.1.1 then return none
      else if r.1.2 then translateLoop cc tc fuel k (idx + 1) jdx v
      else translateLoop cc tc fuel k (idx + 1) (jdx + 1) (if idx ≠ jdx then swapAt v idx jdx else v)

/-- solver.cc:622-631: the clauses for consecutive order literals. -/
def orderClauses (cc : CC) : Lit → List Lit → SM Bool
  | _, [] => return true
  | prev, l :: ls => do
    if prev ≠ -TRUE_LIT then do
      let r ← addClause cc [-prev, l]
      if !r then return false else orderClauses cc l ls
    else orderClauses cc l ls

/-- solver.cc:619-638: the order clauses of all variables. -/
def allOrderClauses (cc : CC) : List VarState → SM Bool
  | [] => return true
  | vs :: vss => do
    let r ← orderClauses cc (-TRUE_LIT) (vs.with.map Prod.snd)
    if !r then return false else allOrderClauses cc vss

/-- Whether the state with the given number is among those of the constraints; stands for the binary search
over the sorted pointers (solver.cc:594-602). -/
def inRemoved (v : List TCon) (n : Nat) : Bool := v.contains (.old n)

/-- solver.cc:565-641 `translate`. The result is whether there was no conflict and the constraints kept
(in case of a conflict, the vector given, which is not used any more). -/
def solverTranslate (cc : CC) (tc : TConf) (fuel steps : Nat) (v : List TCon) : SM (Bool × List TCon) := do
  let r ← translateLoop cc tc fuel steps 0 0 v
  match r with
  | none => return (false, v)
  | some p => do
    whenS (decide (p.2 < p.1.length))
      (modify (fun W => { W with book := W.book.removeConstraints (inRemoved (p.1.drop p.2)) }))
    if tc.orderClauses then do
      let W ← get
      let ret ← allOrderClauses cc W.vars
      return (ret, p.1.take p.2)
    else return (true, p.1.take p.2)

end Clingcon
