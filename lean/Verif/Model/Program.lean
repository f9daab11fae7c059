import Verif.Model.Parsing

/-! Model of the parsing of all theory atoms, `libclingcon/src/parsing.cc:729-839, 895-945`. -/
namespace Clingcon

/-- `Clingo::TheoryElement`: a tuple and whether it has a (non-empty) condition. -/
structure Elem where
  tuple : List Term
  hasCond : Bool

/-- `Clingo::TheoryAtom`. -/
structure TheoryAtom where
  term : Term
  lit : Lit
  elems : List Elem
  guard : Option (Rel × Term)

/-- parsing.cc:940-945 `match`. -/
def matchTerm (t : Term) (name : String) (arity : Nat) : Bool :=
  match t with
  | .sym n => n == name && arity == 0
  | .fn n args => n == name && args.length == arity
  | _ => false

/-- First terms of the tuples of elements without condition (parsing.cc:560-562, 810-813, 825-827). In
the code an element is checked right before it is parsed, here all of them are checked first; this only
affects which exception is raised. -/
def firstTerms : List Elem → Res (List Term)
  | [] => .ok []
  | e :: es =>
    match e.tuple, e.hasCond with
    | t :: _, false => do return t :: (← firstTerms es)
    | _, _ => .error .runtime

/-- Terms of unary tuples of elements without condition (parsing.cc:760, 789). -/
def onlyTerms : List Elem → Res (List Term)
  | [] => .ok []
  | e :: es =>
    match e.tuple, e.hasCond with
    | [t], false => do return t :: (← onlyTerms es)
    | _, _ => .error .runtime

section
variable (pow : Int → Int → Res Int)

/-- parsing.cc:733-735: the loop of `parse_objective`. -/
def emitMinimize (factor : Int) : CoVarVec → BM Unit
  | [] => return
  | (co, v) :: ts => do
    let c ← liftM (safeMul .val factor co)
    emit (.minimize c v)
    emitMinimize factor ts

/-- parsing.cc:730-736 `parse_objective`. -/
def parseObjective (elems : List Term) (factor : Int) : BM Unit := do
  let ts ← parseSum pow linOps elems none
  emitMinimize factor ts

/-- parsing.cc:738-756 `parse_show_elem`. The arity is passed as `size_t`, a negative number becomes a
large one. -/
def parseShowElem (t : Term) : BM Unit :=
  match t with
  | .fn "/" [a, b] => do
    match ← liftM (m := Except Err) (evaluate pow a) with
    | .fn name [] _ =>
      let n ← liftM (m := Except Err) ((← liftM (evaluate pow b)).toNum)
      emit (.showSignature name n)
    | _ => throw .runtime
  | t => do
    match ← liftM (m := Except Err) (evaluate pow t) with
    | .num _ => throw .runtime
    | s => emit (.showVariable (← addVariable s))

/-- parsing.cc:760-763: the loop of `parse_show`. -/
def parseShowElems : List Term → BM Unit
  | [] => return
  | t :: ts => do
    parseShowElem pow t
    parseShowElems ts

/-- parsing.cc:757-764 `parse_show`. -/
def parseShow (elems : List Term) : BM Unit := do
  emit .show
  parseShowElems pow elems

/-- parsing.cc:766-783 `parse_dom_elem`. -/
def parseDomElem (t : Term) : Res (Int × Int) :=
  match t with
  | .fn ".." [a, b] => do
    let x ← (← evaluate pow a).toNum
    let y ← (← evaluate pow b).toNum
    return (x, ← safeAdd .val y 1)
  | t => do
    let x ← (← evaluate pow t).toNum
    return (x, ← safeAdd .val x 1)

/-- parsing.cc:787-796: the loop of `parse_dom`. -/
def parseDomElems : List Term → IntervalSet → Res IntervalSet
  | [], s => .ok s
  | t :: ts, s => do
    let (l, r) ← parseDomElem pow t
    if l < r then
      let _ ← checkValidValue l
      let _ ← checkValidValue (← safeSub .val r 1)
      parseDomElems ts (s.add l r)
    else parseDomElems ts s

/-- parsing.cc:785-802 `parse_dom`. -/
def parseDom (env : BEnv) (lit : Lit) (elems : List Term) (guard : Option (Rel × Term)) : BM Bool := do
  let dom ← liftM (parseDomElems pow elems [])
  match guard with
  | none => throw .runtime
  | some (_, t) =>
    let x ← liftM (evaluate pow t)
    let v ← addVariable x
    post env (.dom (env.solverLit lit) v dom)

/-- parsing.cc:809-816: the loop of `parse_distinct`. -/
def parseDistinctElems : List Term → BM (List (CoVarVec × Int))
  | [] => return []
  | t :: ts => do
    let vec ← parseElem pow linOps t []
    let (vec, rhs) ← liftM (simplify vec true)
    let c ← liftM (safeInv .val rhs)
    return (vec, c) :: (← parseDistinctElems ts)

/-- parsing.cc:806-819 `parse_distinct`. -/
def parseDistinct (env : BEnv) (lit : Lit) (elems : List Term) : BM Bool := do
  let es ← parseDistinctElems pow elems
  post env (.distinct (env.solverLit lit) es)

/-- parsing.cc:824-836: the loop of `parse_disjoint`. -/
def parseDisjointElems : List Term → BM CoVarVec
  | [] => return []
  | .fn "@" [a, b] :: ts => do
    let x ← liftM (evaluate pow a)
    let y ← liftM (evaluate pow b)
    match x with
    | .num _ => throw .runtime
    | x =>
      let n ← liftM (m := Except Err) y.toNum
      if n > 0 then
        let n ← liftM (checkValidValue n)
        let v ← addVariable x
        return (n, v) :: (← parseDisjointElems ts)
      else parseDisjointElems ts
  | _ => throw .runtime

/-- parsing.cc:821-839 `parse_disjoint`. -/
def parseDisjoint (env : BEnv) (lit : Lit) (elems : List Term) : BM Bool := do
  let es ← parseDisjointElems pow elems
  post env (.disjoint (env.solverLit lit) es)

/-- parsing.cc:896-936: one iteration of the loop of `parse`. -/
def parseAtom (env : BEnv) (a : TheoryAtom) : BM Bool :=
  if matchTerm a.term "__sum_b" 0 || matchTerm a.term "__sum_h" 0 then do
    let es ← liftM (firstTerms a.elems)
    parseSumAtom pow env { lit := a.lit, elems := es, guard := a.guard } (matchTerm a.term "__sum_b" 0)
  else if matchTerm a.term "__diff_b" 0 || matchTerm a.term "__diff_h" 0 then do
    let es ← liftM (firstTerms a.elems)
    parseDiffAtom pow env { lit := a.lit, elems := es, guard := a.guard } (matchTerm a.term "__diff_b" 0)
  else if matchTerm a.term "__nsum_b" 0 || matchTerm a.term "__nsum_h" 0 then do
    let es ← liftM (firstTerms a.elems)
    parseNsumAtom pow env { lit := a.lit, elems := es, guard := a.guard } (matchTerm a.term "__nsum_b" 0)
  else if matchTerm a.term "distinct" 0 then do
    let es ← liftM (firstTerms a.elems)
    parseDistinct pow env a.lit es
  else if matchTerm a.term "disjoint" 0 then do
    let es ← liftM (firstTerms a.elems)
    parseDisjoint pow env a.lit es
  else if matchTerm a.term "show" 0 then do
    let es ← liftM (onlyTerms a.elems)
    parseShow pow es
    return true
  else if matchTerm a.term "dom" 0 then do
    let es ← liftM (onlyTerms a.elems)
    parseDom pow env a.lit es a.guard
  else if matchTerm a.term "minimize" 0 then do
    let es ← liftM (firstTerms a.elems)
    parseObjective pow es 1
    return true
  else if matchTerm a.term "maximize" 0 then do
    let es ← liftM (firstTerms a.elems)
    parseObjective pow es (-1)
    return true
  else return true

/-- parsing.cc:895-938 `parse`. -/
def parseProgram (env : BEnv) : List TheoryAtom → BM Bool
  | [] => return true
  | a :: as => andThen (parseAtom pow env a) (parseProgram env as)

end
end Clingcon
