import Verif.Proof.Distinct
import Verif.Proof.Util
import Verif.Spec.Constraints

/-! Propagation of nonlinear constraints. -/
namespace Clingcon
open Spec VarState

variable {β : Nat → Bool} {σ : Nat → Int} {F : List VarState × Book} {m : Bool} {α : Type}

/-- Linear functions are least and greatest at the ends of an interval. -/
theorem lin_range {a l u x : Int} (h1 : l ≤ x) (h2 : x ≤ u) : min (a * l) (a * u) ≤ a * x ∧ a * x ≤ max (a * l) (a * u) := by
  rcases Int.le_total 0 a with h | h
  · exact ⟨le_trans (min_le_left _ _) (Int.mul_le_mul_of_nonneg_left h1 h), le_trans (Int.mul_le_mul_of_nonneg_left h2 h) (le_max_right _ _)⟩
  · exact ⟨le_trans (min_le_right _ _) (Int.mul_le_mul_of_nonpos_left h h2), le_trans (Int.mul_le_mul_of_nonpos_left h h1) (le_max_left _ _)⟩

/-- The bounds of the product are bounds of its value. -/
theorem getBound_spec {coA x y : Int} {vx vy : VarState} (h1 : vx.lower ≤ x) (h2 : x ≤ vx.upper) (h3 : vy.lower ≤ y) (h4 : y ≤ vy.upper) :
    (getBound coA vx vy).1 ≤ coA * (x * y) ∧ coA * (x * y) ≤ (getBound coA vx vy).2 := by
  have a1 := lin_range (a := coA * vx.lower) h3 h4
  have a2 := lin_range (a := coA * vx.upper) h3 h4
  have a3 := lin_range (a := coA * y) h1 h2
  have e1 : coA * y * vx.lower = coA * vx.lower * y := by ring
  have e2 : coA * y * vx.upper = coA * vx.upper * y := by ring
  have e3 : coA * y * x = coA * (x * y) := by ring
  rw [e1, e2, e3] at a3
  unfold getBound
  dsimp only
  constructor
  · refine le_trans ?_ a3.1
    exact min_le_min a1.1 a2.1
  · refine le_trans a3.2 ?_
    exact max_le_max a1.2 a2.2

/-- The value of the variable is between the bounds. -/
def InF (σ : Nat → Int) (F : List VarState × Book) (v : Nat) : Prop := loF F v ≤ σ v ∧ σ v ≤ upF F v

theorem tr_productReason {cc : CC} {x y : Nat} (he : EnvSound cc β) :
    Tr β σ m (InvF β σ F) (productReason cc x y)
      (fun r W => InvF β σ F W ∧ ((∀ l ∈ r, ¬ litTrue β l) → InF σ F x ∧ InF σ F y)) := by
  unfold productReason
  refine Tr.getVarF (fun _ => by ext_auto) (fun vx _ _ _ _ hlx hux => ?_)
  refine Tr.getVarF (fun _ => by ext_auto) (fun vy _ _ _ _ hly huy => ?_)
  refine Tr.bindP (tr_getLiteral he.tt) (fun _ => by ext_auto) (fun a ha => ?_)
  refine Tr.bindP (tr_getLiteral he.tt) (fun _ => by ext_auto) (fun b hb => ?_)
  refine Tr.bindP (tr_getLiteral he.tt) (fun _ => by ext_auto) (fun c hc => ?_)
  refine Tr.bindP (tr_getLiteral he.tt) (fun _ => by ext_auto) (fun d hd => ?_)
  refine Tr.pure (fun W h => ⟨h, fun hall => ?_⟩)
  have h1 := ha.2.mp (litTrue_neg' ha.1 (hall _ (by simp)))
  have h2 := mt hb.2.mpr (hall b (by simp))
  have h3 := hc.2.mp (litTrue_neg' hc.1 (hall _ (by simp)))
  have h4 := mt hd.2.mpr (hall d (by simp))
  unfold InF
  omega

theorem tr_linearReason {cc : CC} {coB : Int} {z : Nat} (he : EnvSound cc β) :
    Tr β σ m (InvF β σ F) (linearReason cc coB z)
      (fun r W => InvF β σ F W ∧ ((∀ l ∈ r, ¬ litTrue β l) → (coB < 0 → σ z ≤ upF F z) ∧ (coB > 0 → loF F z ≤ σ z))) := by
  unfold linearReason
  refine Tr.ite (fun h0 => Tr.pure (fun _ h => ⟨h, fun _ => ⟨fun h => by omega, fun h => by omega⟩⟩)) (fun h0 => ?_)
  refine Tr.getVarF (fun _ => by ext_auto) (fun vz _ _ _ _ hlz huz => ?_)
  refine Tr.ite (fun h1 => ?_) (fun h1 => ?_)
  · refine Tr.bindP (tr_getLiteral he.tt) (fun _ => by ext_auto) (fun a ha => ?_)
    refine Tr.pure (fun W h => ⟨h, fun hall => ⟨fun _ => ?_, fun h => by omega⟩⟩)
    have := ha.2.mp (litTrue_neg' ha.1 (hall _ (by simp)))
    omega
  · refine Tr.bindP (tr_getLiteral he.tt) (fun _ => by ext_auto) (fun a ha => ?_)
    refine Tr.pure (fun W h => ⟨h, fun hall => ⟨fun h => by omega, fun _ => ?_⟩⟩)
    have := mt ha.2.mpr (hall a (by simp))
    omega

theorem tr_nonlinearZ {cc : CC} {x y z : Nat} {coB rhs lowerT : Int} (he : EnvSound cc β) (hco : coB < 0 → ∀ s, coB * s ≤ rhs - lowerT → ceildiv (rhs - lowerT) coB ≤ s)
    (hT : InF σ F x → InF σ F y → coB * σ z ≤ rhs - lowerT) :
    Tr β σ m (InvF β σ F) (nonlinearZ cc x y coB z rhs lowerT) (fun _ W => InvF β σ F W) := by
  unfold nonlinearZ
  refine Tr.ite (fun h0 => Tr.pure (fun _ h => h)) (fun h0 => ?_)
  refine Tr.getVarF (fun _ => by ext_auto) (fun vz _ _ _ _ hlz huz => ?_)
  refine Tr.ite (fun h1 => ?_) (fun h1 => ?_)
  · refine Tr.ite (fun h2 => ?_) (fun _ => Tr.pure (fun _ h => h))
    refine Tr.bindP (tr_productReason he) (fun _ => by ext_auto) (fun r hr => ?_)
    refine Tr.bindP (tr_getLiteral he.tt) (fun _ => by ext_auto) (fun a ha => ?_)
    refine (tr_clause (fun _ => ?_)).post (fun _ _ h => h.1)
    by_contra hcon
    push Not at hcon
    obtain ⟨k1, k2⟩ := hr (fun l hl => hcon l (by simp [hl]))
    refine hcon a (by simp) (ha.2.mpr ?_)
    have := hT k1 k2
    refine (le_floordiv_iff h1).mpr ?_
    rw [Int.mul_comm]; exact this
  · refine Tr.ite (fun h2 => ?_) (fun _ => Tr.pure (fun _ h => h))
    refine Tr.bindP (tr_productReason he) (fun _ => by ext_auto) (fun r hr => ?_)
    refine Tr.bindP (tr_getLiteral he.tt) (fun _ => by ext_auto) (fun a ha => ?_)
    refine (tr_clause (fun _ => ?_)).post (fun _ _ h => h.1)
    by_contra hcon
    push Not at hcon
    obtain ⟨k1, k2⟩ := hr (fun l hl => hcon l (by simp [hl]))
    have h3 := ha.2.mp (litTrue_neg' ha.1 (hcon (-a) (by simp)))
    have := hT k1 k2
    have := hco (by omega) _ this
    omega

theorem tr_nonlinearPropagate {cc : CC} {n x y z : Nat} {coA coB rhs : Int} (he : EnvSound cc β) (hco : coB < 0 → ∀ s,
      coB * s ≤ rhs - productLeast coA (loF F x) (upF F x) (loF F y) (upF F y) →
      ceildiv (rhs - productLeast coA (loF F x) (upF F x) (loF F y) (upF F y)) coB ≤ s)
    (hs : coA * (σ x * σ y) + coB * σ z ≤ rhs) :
    Tr β σ m (InvF β σ F) (nonlinearPropagate cc n coA x y coB z rhs) (fun _ W => Inv β σ W) := by
  unfold nonlinearPropagate
  refine Tr.getVarF (fun _ => by ext_auto) (fun vx _ _ _ _ hlx hux => ?_)
  refine Tr.getVarF (fun _ => by ext_auto) (fun vy _ _ _ _ hly huy => ?_)
  have hT : InF σ F x → InF σ F y → coB * σ z ≤ rhs - (getBound coA vx vy).1 := by
    intro h1 h2
    have := (getBound_spec (coA := coA) (vx := vx) (vy := vy) (hlx ▸ h1.1) (hux ▸ h1.2) (hly ▸ h2.1) (huy ▸ h2.2)).1
    omega
  refine Tr.bindP (p := fun u => (coB < 0 → u.1 = coB * upF F z) ∧ (coB > 0 → u.1 = coB * loF F z) ∧ (coB = 0 → u.1 = 0)) ?_ (fun _ => by ext_auto) (fun u hu => ?_)
  · unfold linearBound
    refine Tr.ite (fun h0 => Tr.pure (fun _ h => ⟨h, fun h => by omega, fun h => by omega, fun _ => rfl⟩)) (fun h0 => ?_)
    refine Tr.getVarF (fun _ => by ext_auto) (fun vz _ _ _ _ hlz huz => ?_)
    refine Tr.ite (fun h1 => Tr.pure (fun _ h => ⟨h, fun _ => by rw [huz], fun h => by omega, fun h => by omega⟩)) (fun h1 => ?_)
    exact Tr.pure (fun _ h => ⟨h, fun h => by omega, fun _ => by rw [hlz], fun h => by omega⟩)
  refine Tr.ite (fun h1 => ?_) (fun h1 => Tr.ite (fun h2 => ?_) (fun h2 => ?_))
  · exact Tr.bind tr_markInactive (fun _ => Tr.pure (fun _ h => h.1))
  · refine Tr.bindP (tr_productReason he) (fun _ => by ext_auto) (fun r hr => ?_)
    refine Tr.bindP (tr_linearReason he) (fun _ => by ext_auto) (fun lz hlz => ?_)
    refine (tr_clause (fun _ => ?_)).post (fun _ _ h => h.1.1)
    by_contra hcon
    push Not at hcon
    obtain ⟨k1, k2⟩ := hr (fun l hl => hcon l (by simp [hl]))
    obtain ⟨k3, k4⟩ := hlz (fun l hl => hcon l (by simp [hl]))
    have h3 := hT k1 k2
    obtain ⟨u1, u2, u3⟩ := hu
    have h4 : u.1 ≤ coB * σ z := by
      rcases lt_trichotomy coB 0 with h | h | h
      · rw [u1 h]; exact Int.mul_le_mul_of_nonpos_left (by omega) (k3 h)
      · rw [u3 h, h]; simp
      · rw [u2 h]; exact Int.mul_le_mul_of_nonneg_left (k4 h) (by omega)
    omega
  · have e : productLeast coA (loF F x) (upF F x) (loF F y) (upF F y) = (getBound coA vx vy).1 := by
      unfold productLeast getBound
      rw [hlx, hux, hly, huy]
    rw [e] at hco
    exact (tr_nonlinearZ he hco hT).post (fun _ _ h => h.1)

end Clingcon
