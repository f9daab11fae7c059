import Verif.Model.Solver
import Verif.Model.Parsing

/-! Model of `ConstraintBuilder` (`libclingcon/src/propagator.cc:31-273`), which turns the calls of the parser into clauses, calls of the
master solver, and constraints. -/
namespace Clingcon

/-- Calls made by the constraint builder. -/
inductive PEv where
  /-- `InitClauseCreator::add_clause` (base.hh:310) -/
  | clause (c : List Lit)
  /-- `Propagator::add_simple` (propagator.cc:376) -/
  | simple (lit : Lit) (co : Int) (var : Var) (rhs : Int) (strict : Bool)
  /-- `Propagator::add_dom` (propagator.cc:372) -/
  | dom (lit : Lit) (var : Var) (elems : List (Int × Int))
  /-- `Propagator::add_constraint` (propagator.cc:381) -/
  | con (c : Constr)
  deriving DecidableEq, Repr

/-- The next fresh literal and the calls so far. -/
structure PState where
  nextLit : Lit
  log : List PEv
  deriving DecidableEq, Repr

/-- The environment of the constraint builder: truth values of atoms in the assignment of the Boolean solver, results of calls, and
`std::sort` by decreasing absolute values of coefficients (the identity if `sort_constraints` is not set). -/
structure PEnv where
  atom : List PEv → Nat → Option Bool
  accept : List PEv → PEv → Bool
  sort : CoVarVec → CoVarVec

/-- `Assignment::truth_value`. -/
def PEnv.value (env : PEnv) (log : List PEv) (l : Lit) : Option Bool :=
  if l > 0 then env.atom log l.natAbs else (env.atom log l.natAbs).map not

/-- Computations of the constraint builder. -/
abbrev PM := StateT PState (Except Err)

/-- A call with a result. -/
def pPost (env : PEnv) (e : PEv) : PM Bool := fun s => .ok (env.accept s.log e, { s with log := s.log ++ [e] })

/-- `Propagator::add_constraint` (propagator.cc:381-388), which has no result. -/
def pCon (c : Constr) : PM Unit := fun s => .ok ((), { s with log := s.log ++ [.con c] })

/-- propagator.cc:45 `add_literal`. -/
def pLit : PM Lit := fun s => .ok (s.nextLit, { s with nextLit := s.nextLit + 1 })

/-- `cc_.assignment().truth_value(lit)`. -/
def pValue (env : PEnv) (l : Lit) : PM (Option Bool) := fun s => .ok (env.value s.log l, s)

/-- The C++ idiom `if (!c1) { return false; } return c2;`. -/
def pAnd (c1 c2 : PM Bool) : PM Bool := do if ← c1 then c2 else return false

/-- Results in the type `val_t`; everything else is undefined behaviour. -/
def pVal (x : Int) : Res Int := machine .val x

/-- propagator.cc:64-67: the elements with inverted coefficients. -/
def pInv : CoVarVec → Res CoVarVec
  | [] => .ok []
  | e :: es => do
    let c ← safeInv .val e.1
    let r ← pInv es
    return (c, e.2) :: r

/-- propagator.cc:52-73 `add_constraint`. -/
def bAddConstraint (env : PEnv) (lit : Lit) (elems : CoVarVec) (rhs : Int) (strict : Bool) : PM Bool := do
  let t ← pValue env lit
  if !strict && t == some false then return true
  else match elems with
    | [(co, var)] => pPost env (.simple lit co var rhs strict)
    | _ => do
      pCon (.sum lit rhs (env.sort elems))
      if strict then do
        let ielems ← (liftM (pInv elems) : PM CoVarVec)
        let r1 ← (liftM (safeAdd .val rhs 1) : PM Int)
        let r2 ← (liftM (safeInv .val r1) : PM Int)
        pCon (.sum (-lit) r2 (env.sort ielems))
        return true
      else return true

/-- propagator.cc:75-90 `add_nonlinear`. -/
def bAddNonlinear (env : PEnv) (lit : Lit) (coab : Int) (a b : Var) (coc : Int) (c : Var) (rhs : Int) (strict : Bool) : PM Bool := do
  if coab = 0 then bAddConstraint env lit (if coc ≠ 0 then [(coc, c)] else []) rhs strict
  else do
    pCon (.nonlinear lit coab a b coc c rhs)
    if strict then do
      let iab ← (liftM (safeInv .val coab) : PM Int)
      let ic ← (liftM (safeInv .val coc) : PM Int)
      let r1 ← (liftM (safeAdd .val rhs 1) : PM Int)
      let r2 ← (liftM (safeInv .val r1) : PM Int)
      pCon (.nonlinear lit iab a b ic c r2)
      return true
    else return true

/-- propagator.cc:135-147: the literals for a pair and the clauses for them; `none` if a clause is rejected. -/
def bPairLits (env : PEnv) (lit : Lit) (truth : Option Bool) (k : Lit → Lit → PM Bool) : PM Bool := do
  let a ← pLit
  if truth == some true then k a (-a)
  else do
    let b ← pLit
    pAnd (pPost env (.clause [a, b, -lit]))
      (pAnd (pPost env (.clause [-a, -b]))
        (pAnd (pPost env (.clause [lit, -a]))
          (pAnd (pPost env (.clause [lit, -b])) (k a b))))

/-- propagator.cc:149-157: the two linear constraints for a pair. -/
def bPairCons (env : PEnv) (celems : CoVarVec) (rhs : Int) (a b : Lit) : PM Bool := do
  let r1 ← (liftM (do let r ← pVal (rhs - 1); checkValidValue r) : PM Int)
  pAnd (bAddConstraint env a celems r1 false) (do
    let nelems ← (liftM (celems.mapM (fun e => do let c ← pVal (-e.1); return (c, e.2))) : PM CoVarVec)
    let n ← (liftM (pVal (-rhs)) : PM Int)
    let r2 ← (liftM (do let r ← pVal (n - 1); checkValidValue r) : PM Int)
    bAddConstraint env b nelems r2 false)

/-- propagator.cc:117-158: the body of the loop for a pair of elements. The result `none` stands for `continue`. -/
def bPair (env : PEnv) (lit : Lit) (truth : Option Bool) (x y : CoVarVec × Int) : PM (Option Bool) := do
  let r0 ← (liftM (pVal (y.2 - x.2)) : PM Int)
  let ny ← (liftM (y.1.mapM (fun e => do let c ← pVal (-e.1); return (c, e.2))) : PM CoVarVec)
  let p ← (liftM (simplify (x.1 ++ ny) true) : PM (CoVarVec × Int))
  let rhs ← (liftM (pVal (r0 + p.2)) : PM Int)
  if p.1.isEmpty then
    if rhs = 0 then do
      let b ← pPost env (.clause [-lit])
      return some b
    else return none
  else do
    let b ← bPairLits env lit truth (bPairCons env p.1 rhs)
    return if b then none else some false

/-- propagator.cc:116-159: the inner loop; `none` stands for reaching its end. -/
def bPairs (env : PEnv) (lit : Lit) (truth : Option Bool) (x : CoVarVec × Int) : List (CoVarVec × Int) → PM (Option Bool)
  | [] => return none
  | y :: ys => do
    match ← bPair env lit truth x y with
    | some b => return some b
    | none => bPairs env lit truth x ys

/-- propagator.cc:115-160: the outer loop. -/
def bAllPairs (env : PEnv) (lit : Lit) (truth : Option Bool) : List (CoVarVec × Int) → PM Bool
  | [] => return true
  | x :: xs => do
    match ← bPairs env lit truth x xs with
    | some b => return b
    | none => bAllPairs env lit truth xs

/-- propagator.cc:97-161 `add_distinct`; the elements are sorted when the constraint is created (constraints.cc:1912-1918). -/
def bAddDistinct (env : PEnv) (lit : Lit) (elems : List (CoVarVec × Int)) : PM Bool := do
  let truth ← pValue env lit
  if truth == some false then return true
  else if elems.length > 2 then do
    pCon (.distinct lit (elems.map (fun e => (env.sort e.1, e.2))))
    return true
  else bAllPairs env lit truth elems

/-- propagator.cc:163-173 `translate_disjoint_(i, j, rhs)`. -/
def bDisjointPrep (i j : Var) (rhs : Int) : Res (Lit × CoVarVec × Int) := do
  let p ← simplify [(1, i), (-1, j)] true
  let rhs ← pVal (rhs + p.2)
  return (if p.1.isEmpty then (if rhs ≥ 0 then TRUE_LIT else -TRUE_LIT) else 0, p.1, rhs)

/-- propagator.cc:175-183 `translate_disjoint_(lit, elems, rhs)`; the continuation gets the literal. -/
def bDisjointLit (env : PEnv) (l : Lit) (elems : CoVarVec) (rhs : Int) (k : Lit → PM Bool) : PM Bool := do
  if l = 0 then do
    let n ← pLit
    pAnd (bAddConstraint env n elems rhs true) (k n)
  else k l

/-- propagator.cc:185-207 `translate_disjoint_(lit, i, j)`. -/
def bDisjointPair (env : PEnv) (lit : Lit) (i j : Int × Var) : PM Bool := do
  if ¬ (i.1 > 0 ∧ j.1 > 0) then throw .ub
  else do
    let a ← (liftM (bDisjointPrep j.2 i.2 0) : PM (Lit × CoVarVec × Int))
    if a.1 = -TRUE_LIT then return true
    else do
      let r ← (liftM (pVal (j.1 - 1)) : PM Int)
      let b ← (liftM (bDisjointPrep i.2 j.2 r) : PM (Lit × CoVarVec × Int))
      if b.1 = -TRUE_LIT then return true
      else bDisjointLit env a.1 a.2.1 a.2.2 (fun la => bDisjointLit env b.1 b.2.1 b.2.2 (fun lb => pPost env (.clause [-lit, -la, -lb])))

/-- propagator.cc:221-239: the inner loop. -/
def bDisjointPairs (env : PEnv) (lit : Lit) (i : Int × Var) : List (Int × Var) → PM Bool
  | [] => return true
  | j :: js => pAnd (pAnd (bDisjointPair env lit i j) (bDisjointPair env lit j i)) (bDisjointPairs env lit i js)

/-- propagator.cc:220-240: the outer loop. -/
def bDisjointAll (env : PEnv) (lit : Lit) : List (Int × Var) → PM Bool
  | [] => return true
  | i :: is => pAnd (bDisjointPairs env lit i is) (bDisjointAll env lit is)

/-- propagator.cc:209-242 `add_disjoint`. -/
def bAddDisjoint (env : PEnv) (lit : Lit) (elems : List (Int × Var)) : PM Bool := do
  let t ← pValue env lit
  if t == some false then return true
  else if elems.length > 2 then do
    pCon (.disjoint lit elems)
    return true
  else bDisjointAll env lit elems

/-- propagator.cc:244-246 `add_dom`. -/
def bAddDom (env : PEnv) (lit : Lit) (var : Var) (elems : List (Int × Int)) : PM Bool := do
  let t ← pValue env lit
  if t == some false then return true
  else pPost env (.dom lit var elems)

/-- The calls of the parser (parsing.hh:86-130). Those for the objective and for output are not concerned with constraints: they are in
`Model/Propagator.lean`. -/
def bEvent (env : PEnv) : Event → PM Bool
  | .clause c => pPost env (.clause c)
  | .constraint lit elems rhs strict => bAddConstraint env lit elems rhs strict
  | .nonlinear lit coab a b coc c rhs strict => bAddNonlinear env lit coab a b coc c rhs strict
  | .distinct lit elems => bAddDistinct env lit elems
  | .disjoint lit elems => bAddDisjoint env lit elems
  | .dom lit var elems => bAddDom env lit var elems
  | .minimize _ _ => return true
  | .show => return true
  | .showSignature _ _ => return true
  | .showVariable _ => return true

end Clingcon
