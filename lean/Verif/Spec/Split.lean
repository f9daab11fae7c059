import Verif.Spec.Bounds
import Mathlib.Data.List.Forall2

/-! Specification of splitting domains. -/
namespace Clingcon.Spec

/-- The number of values that can still be removed. -/
def width : List (Int × Int) → Nat
  | [] => 0
  | b :: bs => (b.2 - b.1).toNat + width bs

/-- All domains are kept or get smaller, and none gets empty. -/
def Narrower (bs bs' : List (Int × Int)) : Prop := List.Forall₂ (fun a b => a.1 ≤ b.1 ∧ b.1 ≤ b.2 ∧ b.2 ≤ a.2) bs bs'

/-- The domain of a variable has been split: all of its values are on one side. -/
def SplitAt (bs bs' : List (Int × Int)) : Prop :=
  ∃ (v : Nat) (a b : Int × Int) (k : Int), bs[v]? = some a ∧ bs'[v]? = some b ∧ a.1 ≤ k ∧ k < a.2 ∧ (b.2 ≤ k ∨ k < b.1)

/-- A sequence of splits. -/
inductive Splits : Nat → List (Int × Int) → List (Int × Int) → Prop
  | nil (bs) : Splits 0 bs bs
  | cons {n a b c} : Narrower a b → SplitAt a b → Splits n b c → Splits (n + 1) a c

end Clingcon.Spec
