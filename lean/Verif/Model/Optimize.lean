import Verif.Model.Propagator
import Verif.Model.Run
import Verif.Model.Value

/-! Model of `check` and `on_model` of `Propagator` (`libclingcon/src/propagator.cc:276-295, 509-537`): these connect the solvers of threads via
the shared bound of the objective. Arithmetic is over unbounded integers. -/
namespace Clingcon

/-- propagator.cc:515-521: the bound that has been read is handed to the solver of the thread. The objective is given by the number of its
constraint and its elements. -/
def handBound (cc : CC) (obj : Option (Nat × MinCon)) (bound : Int) : SM Unit :=
  match obj with
  | some (n, m) => whenS (bound != NO_BOUND) (modify (fun W => { W with book := W.book.updateMinimize n cc.level (bound + m.adjust) }))
  | none => pure ()

/-- propagator.cc:515-527: the first part of `check`. -/
def boundAndCheck (cc : CC) (obj : Option (Nat × MinCon)) (bound : Int) (checkState : Bool) (fuel : Nat) : SM Bool := do
  handBound cc obj bound
  solverCheck cc checkState fuel

/-- propagator.cc:509-537 `check`: if the assignment is total and no literals have been introduced, the final check follows. The size of
the assignment is compared via the next fresh literal, and `total` stands for `is_total`. -/
def propCheck (cc : CC) (total : List SEv → Bool) (obj : Option (Nat × MinCon)) (bound : Int) (checkState checkSol : Bool) (fuel : Nat) : SM Unit := do
  let size := (← get).nextLit
  if !(← boundAndCheck cc obj bound checkState fuel) then return
  else do
    let W ← get
    whenS (size == W.nextLit && total W.log) (solverCheckFull cc checkSol)

/-- The loop at propagator.cc:614-617. -/
def sumValues (W : World) : CoVarVec → Int → Option Int
  | [], b => some b
  | (co, v) :: es, b => do
    let x ← W.getValue v
    sumValues W es (b + co * x)

/-- propagator.cc:609-619 `get_minimize_value`. -/
def World.minimizeValue (W : World) (m : MinCon) : Option Int := (sumValues W m.elems 0).map (· - m.adjust)

end Clingcon
