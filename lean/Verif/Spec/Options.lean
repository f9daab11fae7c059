import Verif.Model.Options

/-! Specification of settings of threads and of numeric options. -/
namespace Clingcon.Spec
open Clingcon

/-- The setting of a thread as a number. -/
def setting (c : SConf) : Target → Int
  | .heuristic => match c.heuristic with | .none => 0 | .maxChain => 1
  | .signValue => c.signValue
  | .refineReasons => if c.refineReasons then 1 else 0
  | .refineIntroduce => if c.refineIntroduce then 1 else 0
  | .propagateChain => if c.propagateChain then 1 else 0
  | .splitAll => if c.splitAll then 1 else 0

/-- The number standing for a given value: except for sign values only 0 is told apart from other numbers. -/
def meant : Target → Int → Int
  | .signValue, v => v
  | _, v => if v = 0 then 0 else 1

/-- The value given last for a thread: either for this thread or for all threads. -/
def lastFor (g : Target) (t : Nat) (h : List ((Target × Option Nat) × Int)) : Option Int :=
  (h.reverse.find? (fun e => decide (e.1.1 = g ∧ (e.1.2 = none ∨ e.1.2 = some t)))).map (·.2)

/-- A non-empty string of decimal digits denotes a number. -/
def DecDigits (ds : List Char) (n : Nat) : Prop :=
  ds ≠ [] ∧ (∀ c ∈ ds, c.isDigit = true) ∧ n = ds.foldl (fun n c => 10 * n + (c.toNat - 48)) 0

/-- A string of decimal digits with an optional sign denotes an integer. -/
def Decimal (s : List Char) (v : Int) : Prop :=
  ∃ ds n, DecDigits ds n ∧ ((s = ds ∧ v = n) ∨ (s = '+' :: ds ∧ v = n) ∨ (s = '-' :: ds ∧ v = -n))

end Clingcon.Spec
