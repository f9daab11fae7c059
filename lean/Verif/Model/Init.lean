import Verif.Model.Copy
import Verif.Model.Translate
import Verif.Model.Propagator

/-! Preparing the solvers of all threads for solving: `Propagator::init` (`libclingcon/src/propagator.cc:390-463`). -/
namespace Clingcon

/-- The members of `Propagator` (propagator.hh:200-209) used by `init`: the solver of the first thread, those of the other
threads, the constraints, the objective, the bound for it and `max_static_var_` of the solvers. Constraints are given by the
numbers of their states, which are the same in all solvers. All solvers are marked at the same time (propagator.cc:459-462),
so that there is just one number. -/
structure Threads where
  master : World
  others : List World
  constraints : List Nat := []
  minimize : Option Nat := none
  bound : Int := NO_BOUND
  marked : Nat := 0

/-- The environment of `init`: the clause creator, the configuration of the translation, the trail of the Boolean solver,
whether states are checked, bounds on the number of steps, the number of threads, the result of `commit`
(propagator.cc:434) and the number of variables of the Boolean solver at the end (propagator.cc:459). -/
structure InitEnv where
  cc : CC
  tc : TConf
  trail : List SEv → List Lit
  checkState : Bool := true
  fuel : Nat
  steps : Nat
  threads : Nat
  commit : Bool := true
  size : Nat

/-- A function applied to all solvers of a list (propagator.cc:400-402, 601-603). -/
def eachSolver (f : SM Unit) : List World → Res (List World)
  | [] => .ok []
  | W :: Ws => do
    let p ← f W
    return p.2 :: (← eachSolver f Ws)

/-- propagator.cc:590-607 `remove_minimize`. -/
def removeObjective (T : Threads) : Res Threads :=
  match T.minimize with
  | none => .ok T
  | some n => do
    let p ← removeConstraint n T.master
    let os ← eachSolver (removeConstraint n) T.others
    return { T with master := p.2, others := os, constraints := T.constraints.erase n, minimize := none }

/-- propagator.cc:399-402: literals of the last solve step are removed in all solvers. -/
def updateSolvers (T : Threads) : Res Threads := do
  let p ← solverUpdate T.marked T.master
  let os ← eachSolver (solverUpdate T.marked) T.others
  return { T with master := p.2, others := os }

/-- The functions of the solver that are called when the theory atoms are parsed (propagator.cc:357-388). -/
def Op.built : Op → Bool
  | .addVar .. => true
  | .simple .. => true
  | .dom .. => true
  | .addConstraint c => match c with | .minimize .. => false | _ => true
  | .fresh => true
  | .post e => match e with | .clause _ => true | _ => false
  | _ => false

/-- propagator.cc:404-408 with 357-388: the calls of functions of the first solver made while the theory atoms are parsed, until one
of them returns false. Constraints are added to the vector. The calls are given; calls that are not permitted, see `Op.pre`, and other
calls count as undefined behaviour. -/
def addAtoms : List Op → World → List Nat → Res (Bool × World × List Nat)
  | [], W, cs => .ok (true, W, cs)
  | op :: ops, W, cs =>
    if op.built && op.preB W then do
      let p ← op.exec W
      let cs := match op with | .addConstraint _ => cs ++ [W.book.cs.length] | _ => cs
      if p.1 then addAtoms ops p.2 cs else .ok (false, p.2, cs)
    else .error .ub

/-- propagator.cc:414-419: the bounds of the other solvers are passed on to the first one. -/
def gatherBounds (env : InitEnv) : List World → SM Bool
  | [] => return true
  | o :: os => do
    if !(← updateBounds env.cc o.vars env.checkState env.fuel) then return false
    else gatherBounds env os

/-- propagator.cc:479-485 and 580-584 `add_minimize_`: the objective is added, if there is one. -/
def addObjective (new : Option (Int × CoVarVec)) (T : Threads) : Res Threads :=
  match new with
  | none => .ok T
  | some (a, es) => do
    let p ← addConstraint (.minimize a es) T.master
    return { T with master := p.2, constraints := T.constraints ++ [p.1], minimize := some p.1 }

/-- The numbers of the states of constraints. -/
def stateNumbers (v : List TCon) : List Nat := v.filterMap (fun t => match t with | .old n => some n | .new _ => none)

/-- propagator.cc:479-501 `translate_`. -/
def translateInit (env : InitEnv) (new : Option (Int × CoVarVec)) (T : Threads) : Res (Bool × Threads) := do
  let T ← addObjective new T
  let p ← solverTranslate env.cc env.tc env.fuel env.steps (T.constraints.map .old) T.master
  if !p.1.1 then return (false, { T with master := p.2 })
  else return (true, { T with master := p.2, constraints := stateNumbers p.1.2, minimize := if p.2.book.translateMinimize then none else T.minimize })

/-- propagator.cc:430-433: the literals of the remaining constraints. -/
def watchedLits (T : Threads) : List Lit := T.constraints.filterMap (fun n => (T.master.book.cs[n]?).map (·.con.lit))

/-- propagator.cc:438-445: the other solvers; there are as many solvers as threads, but at least one. -/
def resizeSolvers (n : Nat) (start : Lit) (os : List World) : List World :=
  (os ++ List.replicate (n - 1 - os.length) (World.init start)).take (n - 1)

/-- propagator.cc:447-449: the state of the first solver is copied. The Boolean solver is the same for all of them. Simplification: the flag
`translate_minimize_` is also taken over; it is only read for the first solver (propagator.cc:495, constraints.cc:749). -/
def copySolvers (master : World) : List World → Res (List World)
  | [] => .ok []
  | W :: Ws => do
    let W' ← copyState { W with log := master.log, nextLit := master.nextLit, book.translateMinimize := master.book.translateMinimize } master
    return W' :: (← copySolvers master Ws)

/-- propagator.cc:436-462. -/
def finishInit (env : InitEnv) (T : Threads) : Res Threads := do
  let os ← copySolvers T.master (resizeSolvers env.threads T.master.nextLit T.others)
  return { T with others := os, bound := if T.minimize.isSome then NO_BOUND else T.bound, marked := env.size }

/-- propagator.cc:391-424: the first part of `init`, up to simplification. The result is whether the problem may still be satisfiable. -/
def prepareInit (env : InitEnv) (atoms : List Op) (T : Threads) : Res (Bool × Threads) := do
  let T ← removeObjective T
  let T ← updateSolvers T
  let p ← addAtoms atoms T.master T.constraints
  let T := { T with master := p.2.1, constraints := p.2.2 }
  if !p.1 then return (false, T)
  else do
    let p ← gatherBounds env T.others T.master
    let T := { T with master := p.2 }
    if !p.1 then return (false, T)
    else do
      let p ← solverSimplify env.cc env.trail env.checkState env.fuel T.master
      return (p.1, { T with master := p.2 })

/-- propagator.cc:390-463 `init`. The calls made while parsing the theory atoms and the prepared objective
(propagator.cc:310-351, see `prepareMinimize`) are given. The result is whether the end was reached, the propagator and the
literals watched. -/
def propInit (env : InitEnv) (atoms : List Op) (new : Option (Int × CoVarVec)) (T : Threads) : Res (Bool × Threads × List Lit) := do
  let p ← prepareInit env atoms T
  if !p.1 then return (false, p.2, [])
  else do
    let p ← translateInit env new p.2
    if !p.1 then return (false, p.2, [])
    else if !env.commit then return (false, p.2, watchedLits p.2)
    else do
      let T ← finishInit env p.2
      return (true, T, watchedLits p.2)

end Clingcon
