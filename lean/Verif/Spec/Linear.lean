import Mathlib.Algebra.BigOperators.Group.List.Basic
import Mathlib.Tactic.Ring
import Mathlib.Data.List.Nodup

/-! Specification of linear expressions. -/
namespace Clingcon.Spec

/-- Value of a list of weighted items where `den` gives the value of an item. -/
def wsum {V : Type} (den : V → Int) (ts : List (Int × V)) : Int := (ts.map (fun t => t.1 * den t.2)).sum

/-- Total coefficient of an item. -/
def coeff {V : Type} [DecidableEq V] (v : V) (ts : List (Int × V)) : Int :=
  ((ts.filter (fun t => t.2 = v)).map Prod.fst).sum

/-- The elements of a list in order of first occurrence. -/
def firstOcc {V : Type} [DecidableEq V] : List V → List V
  | [] => []
  | v :: vs => v :: (firstOcc vs).filter (fun w => w ≠ v)

/-- Value of an item of a linear expression: `4294967295` marks constants. -/
def linDen (σ : Nat → Int) (v : Nat) : Int := if v < 4294967295 then σ v else 1

/-- Value of a list of coefficient/variable pairs in which an invalid variable marks a constant. -/
def linVal (σ : Nat → Int) (ts : List (Int × Nat)) : Int := wsum (linDen σ) ts

/-- Value of a nonlinear term. -/
def prodDen (σ : Nat → Int) (vs : List Nat) : Int := (vs.map σ).prod

section lemmas
variable {V : Type} (den : V → Int)

@[simp] theorem wsum_nil : wsum den [] = 0 := rfl
@[simp] theorem wsum_cons (t : Int × V) (ts) : wsum den (t :: ts) = t.1 * den t.2 + wsum den ts := by
  simp [wsum]
@[simp] theorem wsum_append (a b : List (Int × V)) : wsum den (a ++ b) = wsum den a + wsum den b := by
  simp [wsum]

variable [DecidableEq V]
@[simp] theorem coeff_nil (v : V) : coeff v [] = 0 := rfl
theorem coeff_cons (v : V) (t : Int × V) (ts) :
    coeff v (t :: ts) = (if t.2 = v then t.1 else 0) + coeff v ts := by
  unfold coeff
  by_cases h : t.2 = v <;> simp [h]
theorem coeff_append (v : V) (a b : List (Int × V)) : coeff v (a ++ b) = coeff v a + coeff v b := by
  simp [coeff]

theorem mem_firstOcc (l : List V) (v : V) : v ∈ firstOcc l ↔ v ∈ l := by
  induction l with
  | nil => simp [firstOcc]
  | cons w l ih =>
    simp only [firstOcc, List.mem_cons, List.mem_filter, ih]
    by_cases h : v = w <;> simp [h]

theorem nodup_firstOcc (l : List V) : (firstOcc l).Nodup := by
  induction l with
  | nil => simp [firstOcc]
  | cons w l ih =>
    simp only [firstOcc, List.nodup_cons]
    refine ⟨by simp, ih.filter _⟩
end lemmas

end Clingcon.Spec
