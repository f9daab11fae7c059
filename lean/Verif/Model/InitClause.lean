import Verif.Model.Solver

/-! Model of `InitClauseCreator` (`libclingcon/clingcon/base.hh:278-398`), which collects clauses, weight
constraints and the objective during initialization and commits them later.

Calls of `Clingo::PropagateInit` are recorded in a log with the newest call first; whether a call is
accepted is an arbitrary function of this log. -/
namespace Clingcon

/-- Calls of `Clingo::PropagateInit` made by `commit` (base.hh:368-384). -/
inductive IEv where
  | clause (c : List Lit)
  | weight (lit : Lit) (wlits : List (Lit × Int)) (bound type : Int)
  | minimize (lit : Lit) (weight level : Int)
  deriving DecidableEq, Repr

/-- The members of `InitClauseCreator` (base.hh:391-397); of the statistics those that are changed by the
functions below. -/
structure ICreator where
  translate : Bool := false
  clauses : List Lit := []
  weights : List (Lit × List (Lit × Int) × Int × Int) := []
  minimize : List (Lit × Int × Int) := []
  numClauses : Nat := 0
  translateClauses : Nat := 0
  translateWcs : Nat := 0
  deriving DecidableEq, Repr

namespace ICreator

/-- base.hh:310-327 `add_clause`: clauses are terminated by 0. -/
def addClause (ic : ICreator) (c : List Lit) : ICreator :=
  { ic with
    numClauses := ic.numClauses + 1
    translateClauses := if ic.translate then ic.translateClauses + 1 else ic.translateClauses
    clauses := ic.clauses ++ c ++ [0] }

/-- base.hh:338-357 `add_weight_constraint`; `t` is the truth value of the literal. -/
def addWeight (ic : ICreator) (t : Option Bool) (lit : Lit) (wlits : List (Lit × Int)) (bound type : Int) : ICreator :=
  if t = some true ∧ type < 0 then ic
  else if t = some false ∧ type > 0 then ic
  else { ic with
    translateWcs := if ic.translate then ic.translateWcs + 1 else ic.translateWcs
    weights := ic.weights ++ [(lit, wlits, bound, type)] }

/-- base.hh:360 `add_minimize`. -/
def addMinimize (ic : ICreator) (lit : Lit) (weight level : Int) : ICreator :=
  { ic with minimize := ic.minimize ++ [(lit, weight, level)] }

/-- base.hh:332 `set_state`. -/
def setState (ic : ICreator) (translate : Bool) : ICreator := { ic with translate := translate }

/-- base.hh:364-372: the loop over the vector of clauses; the second argument is the clause read so far, in
reverse order. Leaving the vector while searching for the end of a clause is undefined. -/
def commitClauses (accept : List IEv → Bool) : List Lit → List Lit → List IEv → Res (Bool × List IEv)
  | [], [], log => .ok (true, log)
  | [], _ :: _, _ => .error .ub
  | l :: ls, cur, log =>
    if l = 0 then
      if accept (.clause cur.reverse :: log) then commitClauses accept ls [] (.clause cur.reverse :: log)
      else .ok (false, .clause cur.reverse :: log)
    else commitClauses accept ls (l :: cur) log

/-- base.hh:375-380: the loop over the weight constraints. -/
def commitWeights (accept : List IEv → Bool) : List (Lit × List (Lit × Int) × Int × Int) → List IEv → Res (Bool × List IEv)
  | [], log => .ok (true, log)
  | (lit, wlits, bound, type) :: ws, log => do
    let b ← mAdd Limits.val bound 1
    if accept (.weight (-lit) wlits b (-type) :: log) then commitWeights accept ws (.weight (-lit) wlits b (-type) :: log)
    else return (false, .weight (-lit) wlits b (-type) :: log)

/-- base.hh:363-388 `commit`. -/
def commit (accept : List IEv → Bool) (ic : ICreator) (log : List IEv) : Res (Bool × ICreator × List IEv) := do
  let p ← commitClauses accept ic.clauses [] log
  if !p.1 then return (false, ic, p.2)
  else do
    let ic := { ic with clauses := [] }
    let p ← commitWeights accept ic.weights p.2
    if !p.1 then return (false, ic, p.2)
    else do
      let log := (ic.minimize.map (fun m => IEv.minimize m.1 m.2.1 m.2.2)).reverse ++ p.2
      return (true, { ic with weights := [], minimize := [] }, log)

end ICreator

/-- Calls of functions of `InitClauseCreator`. -/
inductive ICall where
  | clause (c : List Lit)
  /-- the first argument is the truth value of the literal at the time of the call -/
  | weight (t : Option Bool) (lit : Lit) (wlits : List (Lit × Int)) (bound type : Int)
  | minimize (lit : Lit) (weight level : Int)
  | setState (translate : Bool)
  /-- the argument is the behaviour of `Clingo::PropagateInit` -/
  | commit (accept : List IEv → Bool)

/-- The effect of a call on the object and on the log of calls; the result is the one of the function. -/
def ICall.exec : ICall → ICreator × List IEv → Res (Bool × ICreator × List IEv)
  | .clause c, (ic, log) => .ok (true, ic.addClause c, log)
  | .weight t lit wlits bound type, (ic, log) => .ok (true, ic.addWeight t lit wlits bound type, log)
  | .minimize lit w level, (ic, log) => .ok (true, ic.addMinimize lit w level, log)
  | .setState b, (ic, log) => .ok (true, ic.setState b, log)
  | .commit accept, (ic, log) => ic.commit accept log

/-- A sequence of calls; the result is the one of the last call. -/
def ICall.run : List ICall → Bool → ICreator × List IEv → Res (Bool × ICreator × List IEv)
  | [], r, s => .ok (r, s)
  | c :: cs, _, s => do
    let p ← c.exec s
    ICall.run cs p.1 p.2

end Clingcon
