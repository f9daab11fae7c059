import Verif.Model.Term

/-! The interface between parsing and constraint construction
(`AbstractConstraintBuilder`, `libclingcon/clingcon/parsing.hh:86-140`) as a log of events. -/
namespace Clingcon

/-- Literals of clingo/clasp; negation is arithmetic negation, `0` is not a literal. -/
macro "Lit" : term => `(Int)
/-- `TRUE_LIT` (base.hh:83). -/
def TRUE_LIT : Lit := 1

/-- Indices of variables (base.hh:41). -/
macro "Var" : term => `(Nat)
/-- `INVALID_VAR` (base.hh:84). -/
def INVALID_VAR : Var := 4294967295

/-- base.hh:87 `is_valid_var`. -/
def isValidVar (v : Var) : Bool := decide (v < INVALID_VAR)

/-- `co_var_t` and `CoVarVec` (base.hh:46-47). -/
macro "CoVarVec" : term => `(List (Int × Nat))

/-- Calls of the builder made by the parser. -/
inductive Event where
  /-- `add_clause` -/
  | clause (c : List Lit)
  /-- `add_constraint(lit, elems, rhs, strict)` -/
  | constraint (lit : Lit) (elems : CoVarVec) (rhs : Int) (strict : Bool)
  /-- `add_nonlinear(lit, co_ab, var_a, var_b, co_c, var_c, rhs, strict)` -/
  | nonlinear (lit : Lit) (coab : Int) (a b : Var) (coc : Int) (c : Var) (rhs : Int) (strict : Bool)
  /-- `add_distinct(lit, elems)` -/
  | distinct (lit : Lit) (elems : List (CoVarVec × Int))
  /-- `add_disjoint(lit, elems)` -/
  | disjoint (lit : Lit) (elems : CoVarVec)
  /-- `add_dom(lit, var, elems)` -/
  | dom (lit : Lit) (var : Var) (elems : List (Int × Int))
  /-- `add_minimize(co, var)` -/
  | minimize (co : Int) (var : Var)
  /-- `add_show()` -/
  | show
  /-- `show_signature(name, arity)` -/
  | showSignature (name : String) (arity : Int)
  /-- `show_variable(var)` -/
  | showVariable (var : Var)
  deriving DecidableEq

/-- State of a builder: table of symbols (`Propagator::sym_map_`), number of variables of the master
solver, next fresh literal, and events so far (in order). -/
structure BState where
  symMap : List (Sym × Var)
  numVars : Nat
  nextLit : Lit
  log : List Event
  deriving DecidableEq

/-- What the builder obtains from its environment, depending on the events so far. `isTrue log l` is
the result of `is_true` and `accept log e` the result of a call that may fail because of a
conflict. -/
structure BEnv where
  solverLit : Lit → Lit
  isTrue : List Event → Lit → Bool
  accept : List Event → Event → Bool

/-- Computations of the parser. -/
abbrev BM := StateT BState (Except Err)

/-- parsing.hh:102 `add_literal`: a fresh literal. -/
def addLiteral : BM Lit := fun s => .ok (s.nextLit, { s with nextLit := s.nextLit + 1 })

/-- propagator.cc:357-367 `add_variable`: looks up the symbol or adds the next variable of the
master solver (solver.cc:407-416). -/
def addVariable (x : Sym) : BM Var := fun s =>
  match s.symMap.lookup x with
  | some v => .ok (v, s)
  | none => .ok (s.numVars, { s with symMap := s.symMap ++ [(x, s.numVars)], numVars := s.numVars + 1 })

/-- Post an event whose result is a success flag. -/
def post (env : BEnv) (e : Event) : BM Bool := fun s =>
  .ok (env.accept s.log e, { s with log := s.log ++ [e] })

/-- parsing.hh:104 `is_true`. -/
def isTrue (env : BEnv) (l : Lit) : BM Bool := fun s => .ok (env.isTrue s.log l, s)

/-- The C++ idiom `if (!c1) { return false; } return c2;`. -/
def andThen (c1 c2 : BM Bool) : BM Bool := do if ← c1 then c2 else return false

/-- Post an event without result. -/
def emit (e : Event) : BM Unit := fun s => .ok ((), { s with log := s.log ++ [e] })

end Clingcon
