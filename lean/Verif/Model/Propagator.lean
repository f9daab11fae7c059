import Verif.Model.Parsing

/-! Model of the tables of `Propagator` (`libclingcon/src/propagator.cc`, `libclingcon/clingcon/propagator.hh`) for symbols, output,
objective and statistics, and of the functions of the interface using them (`libclingcon/src/clingcon.cc:588-627`). -/
namespace Clingcon

/-- The members of `Propagator` for symbols and output (propagator.hh:200-210): `sym_map_`, `var_map_`, the number of variables of the
master solver, `show_`, `show_variable_`, and `show_signature_`. -/
structure PTab where
  symMap : List (Sym × Var) := []
  varMap : List (Var × Sym) := []
  numVars : Nat := 0
  shows : Bool := false
  showVars : List Var := []
  showSigs : List (String × Nat) := []

namespace PTab

/-- propagator.cc:357-367 `add_variable` (with solver.cc:407-414). -/
def addVariable (p : PTab) (x : Sym) : Var × PTab :=
  match p.symMap.lookup x with
  | some v => (v, p)
  | none => (p.numVars, { p with symMap := p.symMap ++ [(x, p.numVars)], varMap := p.varMap ++ [(p.numVars, x)], numVars := p.numVars + 1 })

/-- solver.cc:407-414 `add_variable`, called for auxiliary variables (constraints.cc:1045-1068). -/
def addAux (p : PTab) : Var × PTab := (p.numVars, { p with numVars := p.numVars + 1 })

/-- propagator.cc:566-572 `get_index`. -/
def getIndex (p : PTab) (x : Sym) : Option Var := p.symMap.lookup x

/-- propagator.cc:574-580 `get_symbol`. -/
def getSymbol (p : PTab) (v : Var) : Option Sym := p.varMap.lookup v

/-- propagator.cc:548-564 `shown`. `Clingo::Signature(name, arity)` has a positive sign and the name of a symbol comes without its
sign; hence, signs do not matter. -/
def shown (p : PTab) (v : Var) : Bool :=
  match p.getSymbol v with
  | none => false
  | some x =>
    if !p.shows then true
    else if p.showVars.contains v then true
    else match x with
      | .fn name args _ => p.showSigs.contains (name, args.length)
      | _ => false

/-- clingcon.cc:588-594 `clingcon_lookup_symbol`. -/
def apiLookup (p : PTab) (x : Sym) : Option Nat := (p.getIndex x).map (· + 1)

/-- clingcon.cc:596-600 `clingcon_get_symbol`; the index 0 wraps around to the largest number. -/
def apiSymbol (p : PTab) (index : Nat) : Option Sym :=
  p.getSymbol (if index = 0 then 18446744073709551615 else index - 1)

/-- clingcon.cc:602-606 `clingcon_assignment_begin`. -/
def apiBegin : Nat := 0

/-- clingcon.cc:608-617 `clingcon_assignment_next`: the next index, or `none` if the function returns false. -/
def apiNext (p : PTab) (index : Nat) : Option Nat :=
  if p.varMap.any (fun e => decide (index ≤ e.1)) then some (index + 1) else none

/-- clingcon.cc:619-622 `clingcon_assignment_has_value`. -/
def apiHasValue (p : PTab) (index : Nat) : Bool := (p.apiSymbol index).isSome

end PTab

/-- Calls that change the tables. -/
inductive PTabOp where
  /-- propagator.cc:357-367 `add_variable` -/
  | var (x : Sym)
  /-- solver.cc:407-414 `add_variable` for an auxiliary variable -/
  | aux
  /-- propagator.hh:76 `show` -/
  | «show»
  /-- propagator.cc:369 `show_variable` -/
  | showVar (v : Var)
  /-- propagator.cc:371 `show_signature` -/
  | showSig (name : String) (arity : Nat)

/-- The call. -/
def PTabOp.exec (p : PTab) : PTabOp → PTab
  | .var x => (p.addVariable x).2
  | .aux => p.addAux.2
  | .show => { p with shows := true }
  | .showVar v => { p with showVars := v :: p.showVars }
  | .showSig n a => { p with showSigs := (n, a) :: p.showSigs }

/-- The tables after a sequence of calls. -/
def ptabRun (ops : List PTabOp) (p : PTab) : PTab := ops.foldl PTabOp.exec p

/-- `MinimizeConstraint` (constraints.hh:154-214): `adjust` and the elements. -/
structure MinCon where
  adjust : Int
  elems : CoVarVec

/-- propagator.cc:610-619 `get_minimize_value`: the cost for the values of variables. -/
def MinCon.cost (m : MinCon) (val : Var → Int) : Int := (m.elems.foldl (fun b e => b + e.1 * val e.2) 0) - m.adjust

/-- propagator.cc:249-264 `prepare_minimize`: `old` is the constraint of the previous step, `new` the elements added in this step; `sort`
stands for the sorting of elements (constraints.hh:201-206). -/
def prepareMinimize (sort : CoVarVec → CoVarVec) (old : Option MinCon) (new : CoVarVec) : Res (Option MinCon) := do
  let elems := match old with
    | some m => new ++ m.elems ++ [(m.adjust, INVALID_VAR)]
    | none => new
  if elems.isEmpty then return old
  else do
    let p ← simplify elems true
    return some ⟨p.2, sort p.1⟩

/-- The greatest number of type `sum_t` stands for a missing bound (propagator.hh:194-198). -/
def NO_BOUND : Int := 9223372036854775807

/-- The members for the objective: `minimize_bound_` (propagator.hh:212) and `stats_step_.cost` (base.hh:196). -/
structure OptState where
  bound : Int := NO_BOUND
  cost : Option Int := none

/-- propagator.cc:284-292: the part of `on_model` for the objective; the argument is the cost of the model, see `MinCon.cost`. The function
is called under the lock of the Boolean solver, one call after the other. -/
def OptState.onModel (s : OptState) (b : Int) : OptState :=
  if b ≤ s.bound then { bound := b - 1, cost := some b } else s

/-- propagator.cc:454-457: `init` resets the bound. -/
def OptState.init (s : OptState) : OptState := { s with bound := NO_BOUND }

/-- propagator.cc:515-521: the bound on the sum over the elements that `check` hands to the solver. -/
def OptState.checkBound (s : OptState) (m : MinCon) : Option Int := if s.bound ≠ NO_BOUND then some (s.bound + m.adjust) else none

/-- `SolverStatistics` (base.hh:101-123) without times. -/
structure SolverStats where
  refinedReason : UInt64 := 0
  introducedReason : UInt64 := 0
  literals : UInt64 := 0

/-- `Statistics` (base.hh:126-200) without times. -/
structure Stats where
  numVariables : UInt64 := 0
  numConstraints : UInt64 := 0
  numClauses : UInt64 := 0
  numLiterals : UInt64 := 0
  translateRemoved : UInt64 := 0
  translateAdded : UInt64 := 0
  translateClauses : UInt64 := 0
  translateWcs : UInt64 := 0
  translateLiterals : UInt64 := 0
  cost : Option Int := none
  threads : List SolverStats := []

/-- base.hh:107-115 `SolverStatistics::accu`. -/
def SolverStats.accu (a s : SolverStats) : SolverStats :=
  ⟨a.refinedReason + s.refinedReason, a.introducedReason + s.introducedReason, a.literals + s.literals⟩

/-- The loop at base.hh:164-172. -/
def accuThreads : List SolverStats → List SolverStats → List SolverStats
  | as, [] => as
  | [], s :: ss => s :: accuThreads [] ss
  | a :: as, s :: ss => a.accu s :: accuThreads as ss

/-- base.hh:148-173 `Statistics::accu`. -/
def Stats.accu (a s : Stats) : Stats where
  numVariables := a.numVariables + s.numVariables
  numConstraints := a.numConstraints + s.numConstraints
  numClauses := a.numClauses + s.numClauses
  numLiterals := a.numLiterals + s.numLiterals
  translateRemoved := a.translateRemoved + s.translateRemoved
  translateAdded := a.translateAdded + s.translateAdded
  translateClauses := a.translateClauses + s.translateClauses
  translateWcs := a.translateWcs + s.translateWcs
  translateLiterals := a.translateLiterals + s.translateLiterals
  cost := s.cost
  threads := accuThreads a.threads s.threads

/-- base.hh:128-146 `Statistics::reset`. -/
def Stats.reset (s : Stats) : Stats := { threads := s.threads.map (fun _ => {}) }

/-- propagator.cc:297-302 `on_statistics`: the statistics of the step and the accumulated ones that are reported, and the statistics for
the next step. -/
def onStatistics (step accu : Stats) : (Stats × Stats) × Stats := ((step, accu.accu step), step.reset)

end Clingcon
