import Verif.Model.Util
import Mathlib.Data.Rat.Floor

/-! Specification of checked arithmetic, independent of how the code checks. -/
namespace Clingcon.Spec

open Clingcon

/-- Exact result or the exception describing the direction in which it does not fit. -/
def exactOrThrow (L : Limits) (x : Int) : Res Int :=
  if x > L.max then .error .overflow else if x < L.min then .error .underflow else .ok x

/-- Mathematical floor of a quotient. -/
def floorQuot (n m : Int) : Int := ⌊(n : ℚ) / (m : ℚ)⌋
/-- Mathematical ceiling of a quotient. -/
def ceilQuot (n m : Int) : Int := ⌈(n : ℚ) / (m : ℚ)⌉

end Clingcon.Spec
