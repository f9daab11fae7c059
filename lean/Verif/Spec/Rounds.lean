import Verif.Model.Run

/-! Specification of the loop of `check` with any behaviour after the last round. -/
namespace Clingcon.Spec

/-- The number of values by which domains are larger than one value. -/
def domainSize (W : World) : Nat := (W.vars.map (fun vs => (vs.upper - vs.lower).toNat)).sum

/-- The loop of `check` (solver.cc:844-888), where `stop` is run if there is another round after the given number of rounds. -/
def checkRounds (stop : SM Bool) (cc : CC) (checkState : Bool) (level : Nat) : Nat → SM Bool
  | 0 => stop
  | n + 1 => do
    if !(← integrateFacts cc) then return false
    else do
      deliver level
      let W ← get
      let ret ← checkTodo cc checkState W.book.todo
      modify (fun W => { W with book.todo := [] })
      let W ← get
      if !ret || W.factmap.isEmpty then return ret
      else checkRounds stop cc checkState level n

/-- `check` (solver.cc:829-889) with the loop above. -/
def checkWith (stop : SM Bool) (cc : CC) (checkState : Bool) (rounds : Nat) : SM Bool := do
  let lvl ← curLevel
  let W ← get
  if cc.level ≠ lvl.level ∧ lvl.level ≥ W.book.minimizeLevel then return true
  else checkRounds stop cc checkState lvl.level rounds

end Clingcon.Spec
