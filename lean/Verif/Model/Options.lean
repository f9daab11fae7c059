import Verif.Model.Solver

/-! Model of the configuration functions in `libclingcon/src/clingcon.cc:47-450, 559-578` and of the configuration structures
in `libclingcon/clingcon/base.hh:203-242`. C strings are lists of characters (without a terminating null character). -/
namespace Clingcon

/-- clingcon.cc:52 `Target`, in the order of declaration. -/
inductive Target where
  | heuristic
  | signValue
  | refineReasons
  | refineIntroduce
  | propagateChain
  | splitAll
  deriving DecidableEq, Repr

/-- clingcon.cc:172-199 `set_value` for the configuration of a thread. A heuristic is given by its number (base.hh:49). -/
def SConf.setValue (c : SConf) : Target → Int → SConf
  | .signValue, v => { c with signValue := v }
  | .heuristic, v => { c with heuristic := if v = 0 then .none else .maxChain }
  | .refineReasons, v => { c with refineReasons := v != 0 }
  | .refineIntroduce, v => { c with refineIntroduce := v != 0 }
  | .propagateChain, v => { c with propagateChain := v != 0 }
  | .splitAll, v => { c with splitAll := v != 0 }

/-- `Config` (base.hh:213-242) together with `shift_constraints` (clingcon.cc:60). The ratio for weight constraints is a floating
point number and left out. -/
structure Conf where
  configs : List SConf := []
  default : SConf := {}
  clauseLimitTotal : Nat := 1000000
  clauseLimit : Nat := 1000
  distinctLimit : Nat := 1000
  translateMinimize : Nat := 0
  minInt : Int := -1073741823
  maxInt : Int := 1073741823
  sortConstraints : Bool := true
  literalsOnly : Bool := false
  addOrderClauses : Bool := false
  checkSolution : Bool := true
  checkState : Bool := false
  shiftConstraints : Bool := true
  deriving DecidableEq, Repr

namespace Conf

/-- The loop at base.hh:218-223 extending the list of configurations by copies of the default one. -/
def grow (d : SConf) : Nat → List SConf → List SConf
  | 0, [] => [d]
  | 0, c :: cs => c :: cs
  | n + 1, [] => d :: grow d n []
  | n + 1, c :: cs => c :: grow d n cs

/-- base.hh:215-226 `solver_config` (the change made by the call). -/
def touch (c : Conf) (thread : Nat) : Conf := { c with configs := grow c.default thread c.configs }

/-- base.hh:215-226 `solver_config` (the result). -/
def solverConfig (c : Conf) (thread : Nat) : SConf := (c.touch thread).configs.getD thread c.default

/-- clingcon.cc:201-211 `set_value`. -/
def setValue (c : Conf) (t : Target) (v : Int) : Option Nat → Conf
  | some thread => { c with configs := (c.touch thread).configs.modify thread (·.setValue t v) }
  | none => { c with default := c.default.setValue t v, configs := c.configs.map (·.setValue t v) }

end Conf

/-- Options given on the command line that are applied later: `clingcon_theory::deferred` (clingcon.cc:59), sorted by key. -/
abbrev Deferred := List ((Target × Option Nat) × Int)

/-- Order of targets (clingcon.cc:52). -/
def Target.idx : Target → Nat
  | .heuristic => 0 | .signValue => 1 | .refineReasons => 2 | .refineIntroduce => 3 | .propagateChain => 4 | .splitAll => 5

/-- Order of the keys of the map: pairs are compared lexicographically, a missing thread is smallest. -/
def keyLt (a b : Target × Option Nat) : Bool :=
  a.1.idx < b.1.idx || (a.1.idx == b.1.idx &&
    match a.2, b.2 with
    | none, some _ => true
    | some x, some y => decide (x < y)
    | _, none => false)

/-- `std::map::emplace` (clingcon.cc:288-309): whether the key is new and the changed map. -/
def Deferred.emplace (k : Target × Option Nat) (v : Int) : Deferred → Bool × Deferred
  | [] => (true, [(k, v)])
  | e :: es =>
    if e.1 = k then (false, e :: es)
    else if keyLt k e.1 then (true, (k, v) :: e :: es)
    else ((emplace k v es).1, e :: (emplace k v es).2)

/-- Options given on the command line, in order; `none` if one of them is rejected because it was given before
(clingcon.cc:285-309). -/
def giveOptions : List ((Target × Option Nat) × Int) → Deferred → Option Deferred
  | [], d => some d
  | (k, v) :: os, d => if (d.emplace k v).1 then giveOptions os (d.emplace k v).2 else none

/-- The inner loop at clingcon.cc:564-569. -/
def applyDeferred (withThread : Bool) (d : Deferred) (c : Conf) : Conf :=
  d.foldl (fun c e => if withThread == e.1.2.isSome then c.setValue e.1.1 e.2 e.1.2 else c) c

/-- clingcon.cc:559-578 `clingcon_validate_options`. -/
def validateOptions (d : Deferred) (c : Conf) : Res Conf :=
  let c := applyDeferred true d (applyDeferred false d c)
  if c.minInt > c.maxInt then .error .runtime else .ok c

/-- clingcon.cc:339-353: the value of `has_heuristic`. -/
def Conf.hasHeuristic (c : Conf) : Bool :=
  decide (c.default.heuristic ≠ .none) || c.configs.any (fun s => decide (s.heuristic ≠ .none))

/-- The function-local static variable of `clingcon_register` (clingcon.cc:350): whether it has been initialised and then, whether
the propagator has the function `decide`. -/
abbrev Registry := Option Bool

/-- clingcon.cc:339-353 `clingcon_register`: the result tells whether the registered propagator takes part in decisions. -/
def register (c : Conf) (r : Registry) : Bool × Registry :=
  match r with
  | none => (c.hasHeuristic, some c.hasHeuristic)
  | some b => (b, some b)

/-- `std::strncmp(s, kw, n) == 0` where `n` is the length of `s` (as in clingcon.cc:143, 146, 213-224, 250, 253, 275, 278): the given
characters are a prefix of the keyword. -/
def isPrefix : List Char → List Char → Bool
  | [], _ => true
  | _ :: _, [] => false
  | a :: s, b :: kw => a == b && isPrefix s kw

/-- Value of a list of decimal digits after `n`, or `none` if there is another character. -/
def digits : Nat → List Char → Option Nat
  | n, [] => some n
  | n, c :: s => if c.isDigit then digits (10 * n + (c.toNat - 48)) s else none

/-- A number with an optional sign; at least one digit. -/
def signedDigits : List Char → Option (Bool × Nat)
  | '-' :: c :: s => (digits 0 (c :: s)).map (fun n => (true, n))
  | '+' :: c :: s => (digits 0 (c :: s)).map (fun n => (false, n))
  | '-' :: [] => none
  | '+' :: [] => none
  | [] => none
  | c :: s => (digits 0 (c :: s)).map (fun n => (false, n))

/-- Integer types of numeric options. -/
inductive NumType where
  /-- `val_t` -/
  | int32
  /-- `uint32_t` -/
  | uint32
  deriving DecidableEq

/-- `std::numeric_limits<T>::lowest()`. -/
def NumType.lowest : NumType → Int | .int32 => -2147483648 | .uint32 => 0
/-- `std::numeric_limits<T>::max()`. -/
def NumType.highest : NumType → Int | .int32 => 2147483647 | .uint32 => 4294967295

/-- clingcon.cc:123-137 `strtonum`: extraction from a stream in the classic locale with base 10. Following the C++ standard, the
characters are converted as if by `strtoll`/`strtoull`; hence, a negative number is read modulo `2^32` for the unsigned type if its
absolute value is in range. Anything following the number is an error. -/
def strtonum (t : NumType) (s : List Char) : Res Int :=
  match signedDigits s with
  | none => .error .runtime
  | some (neg, n) =>
    match t with
    | .int32 =>
      let v : Int := if neg then -n else n
      if t.lowest ≤ v ∧ v ≤ t.highest then .ok v else .error .runtime
    | .uint32 =>
      if (n : Int) ≤ t.highest then .ok (if neg then (-(n : Int)) % 4294967296 else n) else .error .runtime

/-- clingcon.cc:139-155 `parse_range_num`; `whole` tells that the argument `end` is null. In this case the third argument of
`strncmp` is the difference of a null pointer and the string; this is a huge number on the platforms in question, so that whole strings
are compared. -/
def parseRangeNum (t : NumType) (whole : Bool) (s : List Char) (lo hi : Int) : Res Int :=
  if (if whole then s == "min".toList else isPrefix s "min".toList) then .ok lo
  else if (if whole then s == "max".toList else isPrefix s "max".toList) then .ok hi
  else do
    let v ← strtonum t s
    if lo ≤ v ∧ v ≤ hi then return v else .error .logic

/-- clingcon.cc:157-161 `parse_num`. -/
def parseNum (t : NumType) (s : List Char) (lo hi : Int) : Res Int := parseRangeNum t true s lo hi

/-- clingcon.cc:213-224 `parse_bool`. -/
def parseBool (s : List Char) : Res Bool :=
  if isPrefix s "true".toList || (isPrefix s "yes".toList || isPrefix s "1".toList) then .ok true
  else if isPrefix s "false".toList || (isPrefix s "no".toList || isPrefix s "0".toList) then .ok false
  else .error .logic

/-- clingcon.cc:226-231 `find_str` for a comma: the characters before and, if there is a comma, those after it. -/
def splitComma : List Char → List Char × Option (List Char)
  | [] => ([], none)
  | c :: s => if c = ',' then ([], some s) else (c :: (splitComma s).1, (splitComma s).2)

/-- The number of a thread after the comma (clingcon.cc:234-238, 244-248, 269-273); `MAX_THREADS` is 64. -/
def parseThread : Option (List Char) → Res (Option Nat)
  | none => .ok none
  | some s => do return some (← parseNum .uint32 s 0 63).toNat

/-- clingcon.cc:233-241 `parse_bool_thread`. -/
def parseBoolThread (s : List Char) : Res (Int × Option Nat) := do
  let thread ← parseThread (splitComma s).2
  let b ← parseBool (splitComma s).1
  return (if b then 1 else 0, thread)

/-- clingcon.cc:243-257 `parse_sign_value`. -/
def parseSignValue (s : List Char) : Res (Int × Option Nat) := do
  let thread ← parseThread (splitComma s).2
  if isPrefix (splitComma s).1 "+".toList then return (NumType.int32.highest, thread)
  else if isPrefix (splitComma s).1 "-".toList then return (NumType.int32.lowest, thread)
  else do
    let v ← parseRangeNum .int32 false (splitComma s).1 NumType.int32.lowest NumType.int32.highest
    return (v, thread)

/-- clingcon.cc:259-266 `parse_translate_clause`: the total is read as `val_t` and converted to `uint64_t`. -/
def parseTranslateClause (s : List Char) : Res (Nat × Option Nat) := do
  match (splitComma s).2 with
  | none => do
    let v ← parseRangeNum .uint32 false (splitComma s).1 NumType.uint32.lowest NumType.uint32.highest
    return (v.toNat, none)
  | some r => do
    let total ← parseNum .int32 r NumType.int32.lowest NumType.int32.highest
    let v ← parseRangeNum .uint32 false (splitComma s).1 NumType.uint32.lowest NumType.uint32.highest
    return (v.toNat, some (total % 18446744073709551616).toNat)

/-- clingcon.cc:268-283 `parse_heuristic`. -/
def parseHeuristic (s : List Char) : Res (Int × Option Nat) := do
  let thread ← parseThread (splitComma s).2
  if isPrefix (splitComma s).1 "none".toList then return (0, thread)
  else if isPrefix (splitComma s).1 "max-chain".toList then return (1, thread)
  else .error .logic

/-- clingcon.cc:390-441 `clingcon_configure`. The option `translate-pb` is a floating point number and left out; unknown keys are
ignored. -/
def configure (key : String) (value : List Char) (c : Conf) : Res Conf :=
  match key with
  | "shift-constraints" => do return { c with shiftConstraints := ← parseBool value }
  | "sort-constraints" => do return { c with sortConstraints := ← parseBool value }
  | "translate-clauses" => do
    let p ← parseTranslateClause value
    return { c with clauseLimit := p.1, clauseLimitTotal := p.2.getD c.clauseLimitTotal }
  | "literals-only" => do return { c with literalsOnly := ← parseBool value }
  | "translate-distinct" => do return { c with distinctLimit := (← parseNum .uint32 value 0 4294967295).toNat }
  | "translate-opt" => do return { c with translateMinimize := (← parseNum .uint32 value 0 4294967295).toNat }
  | "add-order-clauses" => do return { c with addOrderClauses := ← parseBool value }
  | "min-int" => do return { c with minInt := ← parseNum .int32 value (-1073741823) 1073741823 }
  | "max-int" => do return { c with maxInt := ← parseNum .int32 value (-1073741823) 1073741823 }
  | "check-solution" => do return { c with checkSolution := ← parseBool value }
  | "check-state" => do return { c with checkState := ← parseBool value }
  | "order-heuristic" => do let p ← parseHeuristic value; return c.setValue .heuristic p.1 p.2
  | "sign-value" => do let p ← parseSignValue value; return c.setValue .signValue p.1 p.2
  | "refine-reasons" => do let p ← parseBoolThread value; return c.setValue .refineReasons p.1 p.2
  | "refine-introduce" => do let p ← parseBoolThread value; return c.setValue .refineIntroduce p.1 p.2
  | "propagate-chain" => do let p ← parseBoolThread value; return c.setValue .propagateChain p.1 p.2
  | "split-all" => do let p ← parseBoolThread value; return c.setValue .splitAll p.1 p.2
  | _ => .ok c

end Clingcon
