import Verif.Model.Builder
import Verif.Model.IntervalSet
import Mathlib.Data.List.Sort

/-! Model of constraint parsing, `libclingcon/src/parsing.cc:360-938`. -/
namespace Clingcon

/-- Parameters that distinguish the instances of the parsing templates for `CoVarVec` and
`NonlinearTermVec` (parsing.cc:375-407). -/
structure TermOps (V : Type) where
  /-- variable part pushed by `push_co` -/
  const : V
  /-- variable part pushed by `push_co_var` -/
  var : Var → V
  /-- variable part pushed by `push_co_vars` -/
  mul : V → V → Res V

/-- parsing.cc:375, 379, 383-391: linear terms; the invalid variable marks constants. -/
def linOps : TermOps Var where
  const := INVALID_VAR
  var := id
  mul l r :=
    if ¬ isValidVar l then .ok r else if ¬ isValidVar r then .ok l else .error .runtime

/-- parsing.cc:377, 381, 393-397: nonlinear terms. -/
def nonlinOps : TermOps (List Var) where
  const := []
  var v := [v]
  mul l r := .ok (l ++ r)

/-- Negate the coefficients of a list of terms, e.g. parsing.cc:523-525. -/
def invAll {V : Type} : List (Int × V) → Res (List (Int × V))
  | [] => .ok []
  | (co, v) :: ts => do
    let co ← safeInv .val co
    let ts ← invAll ts
    return (co, v) :: ts

/-- Negate the coefficients from position `pos` on (parsing.cc:523-525, 529-531, 569-571). -/
def invFrom {V : Type} (pos : Nat) (res : List (Int × V)) : Res (List (Int × V)) := do
  return res.take pos ++ (← invAll (res.drop pos))

/-- parsing.cc:540-542: inner loop of the product. -/
def mulRow {V : Type} (ops : TermOps V) (lco : Int) (lv : V) :
    List (Int × V) → List (Int × V) → Res (List (Int × V))
  | [], res => .ok res
  | (rco, rv) :: rs, res => do
    let co ← safeMul .val lco rco
    let v ← ops.mul lv rv
    mulRow ops lco lv rs (res ++ [(co, v)])

/-- parsing.cc:539-543: outer loop of the product. -/
def mulAll {V : Type} (ops : TermOps V) : List (Int × V) → List (Int × V) → List (Int × V) → Res (List (Int × V))
  | [], _, res => .ok res
  | (lco, lv) :: ls, rs, res => do
    let res ← mulRow ops lco lv rs res
    mulAll ops ls rs res

section
variable (pow : Int → Int → Res Int) {V : Type} (ops : TermOps V)

/-- parsing.cc:546-551: the remaining kinds of terms become variables. -/
def parseVar (t : Term) (res : List (Int × V)) : BM (List (Int × V)) :=
  match t with
  | .sym _ | .fn _ _ | .tuple _ => do
    let v ← addVariable (← liftM (evaluate pow t))
    return res ++ [(1, ops.var v)]
  | _ => throw .runtime

/-- parsing.cc:399-407 `push_value`. -/
def pushValue (t : Term) (res : List (Int × V)) : BM (List (Int × V)) := do
  let n ← liftM (m := Except Err) ((← liftM (evaluate pow t)).toNum)
  return res ++ [(n, ops.const)]

/-- parsing.cc:490-552 `parse_constraint_elem<TermVec, true>`; `res` is the vector passed by
reference. -/
def parseElem : Term → List (Int × V) → BM (List (Int × V))
  | .num n, res => return res ++ [(n, ops.const)]
  | .fn name [a, b], res =>
    if name = "+" then do
      let res ← parseElem a res
      parseElem b res
    else if name = "-" then do
      let res ← parseElem a res
      let pos := res.length
      let res ← parseElem b res
      liftM (invFrom pos res)
    else if name = "*" then do
      let lhs ← parseElem a []
      let rhs ← parseElem b []
      liftM (mulAll ops lhs rhs res)
    else if name = "**" ∨ name = "/" ∨ name = "\\" then pushValue pow ops (.fn name [a, b]) res
    else parseVar pow ops (.fn name [a, b]) res
  | .fn name [a], res =>
    if name = "-" then do
      let pos := res.length
      let res ← parseElem a res
      liftM (invFrom pos res)
    else if name = "+" then parseElem a res
    else parseVar pow ops (.fn name [a]) res
  | t, res => parseVar pow ops t res

/-- parsing.cc:496-508: one argument of a difference. -/
def parseDiffArg (co : Int) (t : Term) (res : List (Int × V)) : BM (List (Int × V)) := do
  match ← liftM (m := Except Err) (evaluate pow t) with
  | .num n => return res ++ [(← liftM (m := Except Err) (if co = 1 then .ok n else safeInv .val n), ops.const)]
  | s => return res ++ [(co, ops.var (← addVariable s))]

/-- parsing.cc:492-511 `parse_constraint_elem<TermVec, false>` for difference constraints. -/
def parseDiffElem (t : Term) (res : List (Int × V)) : BM (List (Int × V)) :=
  match t with
  | .fn name [a, b] =>
    if name = "-" then do
      let res ← parseDiffArg pow ops 1 a res
      parseDiffArg pow ops (-1) b res
    else throw .runtime
  | _ => throw .runtime

/-- parsing.cc:559-563: the loop over the elements (conditions are empty and tuples non-empty by
construction; only the first term of a tuple is used). -/
def parseElems : List Term → List (Int × V) → BM (List (Int × V))
  | [], res => return res
  | t :: ts, res => do
    let res ← parseElem pow ops t res
    parseElems ts res

/-- parsing.cc:554-578 `parse_constraint_elems<TermVec, true>`. -/
def parseSum (elems : List Term) (rhs : Option Term) : BM (List (Int × V)) := do
  let res ← parseElems pow ops elems []
  match rhs with
  | none => return res
  | some t =>
    let pos := res.length
    let res ← parseElem pow ops t res
    liftM (invFrom pos res)

/-- parsing.cc:554-578 `parse_constraint_elems<TermVec, false>`. -/
def parseDiff (elems : List Term) (rhs : Term) : BM (List (Int × V)) := do
  match elems with
  | [t] =>
    let res ← parseDiffElem pow ops t []
    let n ← liftM (m := Except Err) ((← liftM (evaluate pow rhs)).toNum)
    let n ← liftM (safeInv .val n)
    return res ++ [(n, ops.const)]
  | _ => throw .runtime

end

/-- base.hh:90-98 `check_valid_value`. -/
def checkValidValue (x : Int) : Res Int :=
  if x < MIN_VAL then .error .underflow else if x > MAX_VAL then .error .underflow else .ok x

/-- parsing.cc:849-865: main loop of `simplify`. `out` is the part of the vector before `jt`, the
list argument the part from `it` on, `seen` the hash table from variables to positions. -/
def simplifyLoop {V : Type} [DecidableEq V] (isConst : V → Bool) (dropZero : Bool) :
    List (Int × V) → List (Int × V) → List (V × Nat) → Int → Res (List (Int × V) × Int)
  | [], out, _, rhs => .ok (out, rhs)
  | (co, v) :: ts, out, seen, rhs =>
    if dropZero && co == 0 then simplifyLoop isConst dropZero ts out seen rhs
    else if isConst v then do
      let rhs ← safeSub .val rhs co
      simplifyLoop isConst dropZero ts out seen rhs
    else
      match seen.lookup v with
      | some i =>
        match out[i]? with
        | some (co', v') => do
          let co'' ← safeAdd .val co' co
          simplifyLoop isConst dropZero ts (out.set i (co'', v')) seen rhs
        | none => .error .ub
      | none => simplifyLoop isConst dropZero ts (out ++ [(co, v)]) ((v, out.length) :: seen) rhs

/-- parsing.cc:874-881: range checks; `L` is the type for sums. -/
def checkRange {V : Type} (L : Limits) (relevant : V → Bool) :
    List (Int × V) → Int → Int → Res (Int × Int)
  | [], mn, mx => .ok (mn, mx)
  | (co, v) :: ts, mn, mx => do
    let _ ← checkValidValue co
    if relevant v then
      let mn ← safeAdd L mn (← safeMul L co (if co > 0 then MIN_VAL else MAX_VAL))
      let mx ← safeAdd L mx (← safeMul L co (if co > 0 then MAX_VAL else MIN_VAL))
      checkRange L relevant ts mn mx
    else checkRange L relevant ts mn mx

/-- parsing.cc:843-884 `simplify` for linear terms. -/
def simplify (vec : CoVarVec) (dropZero : Bool) : Res (CoVarVec × Int) := do
  let (out, rhs) ← simplifyLoop (fun v => !isValidVar v) dropZero vec [] [] 0
  let out := if dropZero then out.filter (fun t => t.1 != 0) else out
  let _ ← checkValidValue rhs
  let _ ← checkRange .sum (fun _ => true) out rhs rhs
  return (out, rhs)

/-- parsing.cc:419: the variables of a nonlinear term are sorted. -/
def sortTerm (t : Int × List Var) : Int × List Var := (t.1, t.2.insertionSort (· ≤ ·))

/-- parsing.cc:410-459 `simplify` for nonlinear terms. -/
def simplifyNonlin (vec : List (Int × List Var)) (dropZero : Bool) : Res (List (Int × List Var) × Int) := do
  let (out, rhs) ← simplifyLoop (fun v => v.isEmpty) dropZero (vec.map sortTerm) [] [] 0
  let out := if dropZero then out.filter (fun t => t.1 != 0) else out
  let _ ← checkValidValue rhs
  let (mn, mx) ← checkRange .nsum (fun v => v.length == 1) out rhs rhs
  let _ ← safeInv .nsum mn
  let _ ← safeInv .nsum mx
  return (out, rhs)

/-- Relation symbols of guards. -/
inductive Rel where
  | le | ge | lt | gt | eq | ne
  deriving DecidableEq, Repr

/-- parsing.cc:49-69 `negate_relation`. -/
def negateRelation : Rel → Rel
  | .eq => .ne
  | .ne => .eq
  | .lt => .ge
  | .le => .gt
  | .gt => .le
  | .ge => .lt

/-- parsing.cc:461-488: `add_constraint` for the two kinds of term vectors is a parameter here. -/
abbrev AddConstraint (V : Type) := Lit → List (Int × V) → Int → Bool → BM Bool

/-- parsing.cc:461-464. -/
def addLinear (env : BEnv) : AddConstraint Var := fun lit elems rhs strict =>
  post env (.constraint lit elems rhs strict)

/-- parsing.cc:466-486: the loop classifying the terms; the state is `(co_ab, a, b, co_c, c)`. Both
shape checks test `co_c`, as in the code. -/
def classify : List (Int × List Var) → Int × Var × Var × Int × Var → Res (Int × Var × Var × Int × Var)
  | [], st => .ok st
  | (co, vars) :: ts, (coab, a, b, coc, c) =>
    match vars with
    | [] => classify ts (coab, a, b, coc, c)
    | [v] => if coc = 0 then classify ts (coab, a, b, co, v) else .error .runtime
    | [v, w] => if coc = 0 then classify ts (co, v, w, coc, c) else .error .runtime
    | _ => .error .runtime

/-- parsing.cc:466-488. -/
def addNonlin (env : BEnv) : AddConstraint (List Var) := fun lit elems rhs strict => do
  let (coab, a, b, coc, c) ← liftM (classify elems (0, INVALID_VAR, INVALID_VAR, 0, INVALID_VAR))
  post env (.nonlinear lit coab a b coc c rhs strict)

/-- parsing.cc:586-602: rewriting `>`, `<`, `>=` into `<=`. -/
def rewriteRel {V : Type} (elems : List (Int × V)) (op : Rel) (rhs : Int) : Res (List (Int × V) × Rel × Int) :=
  match op with
  | .gt => do
    let rhs ← safeAdd .val rhs 1
    let rhs ← safeInv .val rhs
    return (← invAll elems, .le, rhs)
  | .ge => do
    let rhs ← safeInv .val rhs
    return (← invAll elems, .le, rhs)
  | .lt => do
    let rhs ← safeSub .val rhs 1
    return (elems, .le, rhs)
  | op => return (elems, op, rhs)

/-- parsing.cc:605-611 for `<=` without `strict`. -/
def normalizeLe1 {V : Type} (env : BEnv) (add : AddConstraint V) (lit : Lit) (elems : List (Int × V)) (rhs : Int) :
    BM Bool := do
  if ← isTrue env (-lit) then return true else add lit elems rhs false

/-- parsing.cc:605-611, 676-688 for `<=`: the part of `normalize_constraint` after the rewriting; the
recursive call in line 685 is for `>` without `strict`, which is rewritten to `<=`. -/
def normalizeLe {V : Type} (env : BEnv) (add : AddConstraint V) (lit : Lit) (elems : List (Int × V)) (rhs : Int)
    (strict : Bool) : BM Bool :=
  if strict then
    if elems.length = 1 then
      add lit elems rhs true
    else
      andThen (normalizeLe1 env add lit elems rhs) do
        let r ← liftM (rewriteRel elems .gt rhs)
        normalizeLe1 env add (-lit) r.1 r.2.2
  else normalizeLe1 env add lit elems rhs

/-- parsing.cc:636-641 for `=`: both inequalities. -/
def normalizeBoth {V : Type} (env : BEnv) (add : AddConstraint V) (a b : Lit) (elems : List (Int × V)) (rhs : Int)
    (strict : Bool) : BM Bool :=
  andThen (normalizeLe env add a elems rhs strict) do
    let r ← liftM (rewriteRel elems .ge rhs)
    normalizeLe env add b r.1 r.2.2 strict

/-- parsing.cc:622-645 for strict `=`: clauses that make `lit` equivalent to the conjunction of `a`
and `b`, and both inequalities. -/
def normalizeEqLits {V : Type} (env : BEnv) (add : AddConstraint V) (lit a b : Lit) (elems : List (Int × V))
    (rhs : Int) : BM Bool :=
  andThen (post env (.clause [-lit, a])) <|
  andThen (post env (.clause [-lit, b])) <|
  andThen (post env (.clause [-a, -b, lit])) <|
  normalizeBoth env add a b elems rhs true

/-- parsing.cc:612-645 for `=` (after the rewriting; `=` itself is not rewritten). -/
def normalizeEq {V : Type} (env : BEnv) (add : AddConstraint V) (lit : Lit) (elems : List (Int × V)) (rhs : Int)
    (strict : Bool) : BM Bool := do
  if strict then
    if ← isTrue env lit then normalizeEqLits env add lit TRUE_LIT TRUE_LIT elems rhs
    else do
      let a ← addLiteral
      let b ← addLiteral
      normalizeEqLits env add lit a b elems rhs
  else normalizeBoth env add lit lit elems rhs false

/-- parsing.cc:654-673 for `!=` without `strict`: clauses and both inequalities. -/
def normalizeNeLits {V : Type} (env : BEnv) (add : AddConstraint V) (lit a b : Lit) (elems : List (Int × V))
    (rhs : Int) : BM Bool :=
  andThen (post env (.clause [a, b, -lit])) <|
  andThen (post env (.clause [-a, -b])) <|
  andThen (post env (.clause [lit, -a])) <|
  andThen (post env (.clause [lit, -b])) <|
  andThen (do
    let r ← liftM (rewriteRel elems .lt rhs)
    normalizeLe env add a r.1 r.2.2 false) do
    let r ← liftM (rewriteRel elems .gt rhs)
    normalizeLe env add b r.1 r.2.2 false

/-- parsing.cc:646-674 for `!=` (strict: line 648). -/
def normalizeNe {V : Type} (env : BEnv) (add : AddConstraint V) (lit : Lit) (elems : List (Int × V)) (rhs : Int)
    (strict : Bool) : BM Bool := do
  if strict then normalizeEq env add (-lit) elems rhs true
  else
    let a ← addLiteral
    let b ← addLiteral
    normalizeNeLits env add lit a b elems rhs

/-- parsing.cc:580-691 `normalize_constraint`. The recursion of the C++ function has depth at most
four and a fixed shape; it is unrolled into `normalizeLe`, `normalizeEq` and `normalizeNe`. -/
def normalize {V : Type} (env : BEnv) (add : AddConstraint V) (lit : Lit) (elems : List (Int × V)) (op : Rel)
    (rhs : Int) (strict : Bool) : BM Bool := do
  let r ← liftM (rewriteRel elems op rhs)
  match r.2.1 with
  | .eq => normalizeEq env add lit r.1 r.2.2 strict
  | .ne => normalizeNe env add lit r.1 r.2.2 strict
  | _ => normalizeLe env add lit r.1 r.2.2 strict

/-- parsing.cc:715-718: greatest common divisor of right-hand side and coefficients (`std::gcd` is
non-negative; without elements `d` is just `rhs`). -/
def gcdAll {V : Type} (elems : List (Int × V)) (rhs : Int) : Int :=
  elems.foldl (fun d t => (Int.gcd d t.1 : Int)) rhs

/-- parsing.cc:714-724: division by the greatest common divisor (C++ division). -/
def divGcd {V : Type} (elems : List (Int × V)) (rhs : Int) : List (Int × V) × Int :=
  let d := gcdAll elems rhs
  if d > 1 then (elems.map (fun t => (t.1.tdiv d, t.2)), rhs.tdiv d) else (elems, rhs)

/-- A theory atom: program literal, terms of the elements (the first of each tuple), guard. -/
structure Atom where
  lit : Lit
  elems : List Term
  guard : Option (Rel × Term)

/-- parsing.cc:700-727 `parse_constraint<CoVarVec, true>` (`&sum`). -/
def parseSumAtom (pow : Int → Int → Res Int) (env : BEnv) (atom : Atom) (strict : Bool) : BM Bool := do
  match atom.guard with
  | none => throw .runtime
  | some (op, t) =>
    let lit := env.solverLit atom.lit
    let elems ← parseSum pow linOps atom.elems (some t)
    let (elems, rhs) ← liftM (simplify elems true)
    let (elems, rhs) := divGcd elems rhs
    normalize env (addLinear env) lit elems op rhs strict

/-- parsing.cc:700-727 `parse_constraint<CoVarVec, false>` (`&diff`). -/
def parseDiffAtom (pow : Int → Int → Res Int) (env : BEnv) (atom : Atom) (strict : Bool) : BM Bool := do
  match atom.guard with
  | none => throw .runtime
  | some (op, t) =>
    let lit := env.solverLit atom.lit
    let elems ← parseDiff pow linOps atom.elems t
    let (elems, rhs) ← liftM (simplify elems true)
    let (elems, rhs) := divGcd elems rhs
    normalize env (addLinear env) lit elems op rhs strict

/-- parsing.cc:700-727 `parse_constraint<NonlinearTermVec>` (`&nsum`). -/
def parseNsumAtom (pow : Int → Int → Res Int) (env : BEnv) (atom : Atom) (strict : Bool) : BM Bool := do
  match atom.guard with
  | none => throw .runtime
  | some (op, t) =>
    let lit := env.solverLit atom.lit
    let elems ← parseSum pow nonlinOps atom.elems (some t)
    let (elems, rhs) ← liftM (simplifyNonlin elems true)
    let (elems, rhs) := divGcd elems rhs
    normalize env (addNonlin env) lit elems op rhs strict

end Clingcon
