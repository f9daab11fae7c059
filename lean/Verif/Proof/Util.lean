import Verif.Model.Util
import Verif.Spec.Arith
import Mathlib.Tactic.Positivity
import Mathlib.Tactic.Linarith
import Mathlib.Tactic.Ring
import Mathlib.Data.Rat.Floor

set_option linter.unusedSimpArgs false

/-! Helper lemmas for the arithmetic of util.hh. -/
namespace Clingcon

theorem tdiv_facts (n m : Int) : m * n.tdiv m + n.tmod m = n ∧
    (0 ≤ n → 0 ≤ n.tmod m) ∧ (n ≤ 0 → n.tmod m ≤ 0) ∧
    (m > 0 → n.tmod m < m ∧ -m < n.tmod m) ∧ (m < 0 → n.tmod m < -m ∧ m < n.tmod m) := by
  refine ⟨Int.mul_tdiv_add_tmod n m, fun h => Int.tmod_nonneg _ h, fun h => ?_, fun h => ?_, fun h => ?_⟩
  · have := Int.tmod_nonneg (a := -n) m (by omega)
    rw [Int.neg_tmod] at this; omega
  · constructor
    · exact Int.tmod_lt_of_pos _ h
    · have := Int.tmod_lt_of_pos (-n) h
      rw [Int.neg_tmod] at this; omega
  · have h1 := Int.tmod_lt_of_pos n (b := -m) (by omega)
    have h2 := Int.tmod_lt_of_pos (-n) (b := -m) (by omega)
    rw [Int.neg_tmod] at h2
    rw [Int.tmod_neg] at h1 h2
    omega

/-- `floordiv` satisfies the inequalities characterising the floor. -/
theorem floordiv_bounds (n m : Int) (hm : m ≠ 0) :
    (0 < m → floordiv n m * m ≤ n ∧ n < (floordiv n m + 1) * m) ∧
    (m < 0 → n ≤ floordiv n m * m ∧ (floordiv n m + 1) * m < n) := by
  obtain ⟨h1, h2, h3, h4, h5⟩ := tdiv_facts n m
  unfold floordiv
  generalize n.tdiv m = q at *
  generalize n.tmod m = r at *
  have e1 : (q - 1) * m = m * q - m := by ring
  have e2 : (q - 1 + 1) * m = m * q := by ring
  have e3 : q * m = m * q := by ring
  have e4 : (q + 1) * m = m * q + m := by ring
  rcases lt_or_gt_of_ne hm with hm' | hm'
  · refine ⟨fun h => by omega, fun _ => ?_⟩
    have := h5 hm'
    split_ifs with hc
    · simp [hm'] at hc
      rw [e1, e2]
      have := h2 hc.1
      omega
    · simp [hm'] at hc
      rw [e3, e4]
      by_cases hn : n < 0
      · have := h3 (by omega); omega
      · have := hc (by omega); omega
  · refine ⟨fun _ => ?_, fun h => by omega⟩
    have := h4 hm'
    have hm2 : ¬ m < 0 := by omega
    split_ifs with hc
    · simp [hm2] at hc
      rw [e1, e2]
      have := h3 (by omega)
      omega
    · simp [hm2] at hc
      rw [e3, e4]
      by_cases hn : n < 0
      · have := hc hn; omega
      · have := h2 (by omega); omega

/-- For a positive divisor `floordiv` is adjoint to multiplication. -/
theorem le_floordiv_iff {n m k : Int} (hm : 0 < m) : k ≤ floordiv n m ↔ k * m ≤ n := by
  have := (floordiv_bounds n m (by omega)).1 hm
  constructor
  · intro h
    nlinarith
  · intro h
    by_contra hc
    have : floordiv n m + 1 ≤ k := by omega
    nlinarith

theorem floordiv_lt_iff {n m k : Int} (hm : 0 < m) : floordiv n m < k ↔ n < k * m := by
  have := le_floordiv_iff (n := n) (k := k) hm
  omega

/-- For a negative divisor. -/
theorem le_floordiv_iff_neg {n m k : Int} (hm : m < 0) : k ≤ floordiv n m ↔ n ≤ k * m := by
  have := (floordiv_bounds n m (by omega)).2 hm
  constructor
  · intro h
    nlinarith
  · intro h
    by_contra hc
    have : floordiv n m + 1 ≤ k := by omega
    nlinarith

theorem floordiv_eq_floor (n m : Int) (hm : m ≠ 0) : floordiv n m = ⌊(n : ℚ) / (m : ℚ)⌋ := by
  symm
  rw [Int.floor_eq_iff]
  rcases lt_or_gt_of_ne hm with h | h
  · have := (floordiv_bounds n m hm).2 h
    have hq : (m : ℚ) < 0 := by exact_mod_cast h
    rw [le_div_iff_of_neg hq, div_lt_iff_of_neg hq]
    exact ⟨by exact_mod_cast this.1, by exact_mod_cast this.2⟩
  · have := (floordiv_bounds n m hm).1 h
    have hq : (0 : ℚ) < (m : ℚ) := by exact_mod_cast h
    rw [le_div_iff₀ hq, div_lt_iff₀ hq]
    exact ⟨by exact_mod_cast this.1, by exact_mod_cast this.2⟩

theorem tmod_eq_zero_iff_dvd (n m : Int) : n.tmod m = 0 ↔ m ∣ n :=
  ⟨Int.dvd_of_tmod_eq_zero, Int.tmod_eq_zero_of_dvd⟩

open Spec

/-- Limits of a two's complement type. -/
def TwosComplement (L : Limits) : Prop := L.max = -L.min - 1 ∧ 0 ≤ L.max

theorem twosComplement_signed (k : Nat) : TwosComplement (Limits.signed k) := by
  have : (0 : Int) < 2 ^ k := by positivity
  constructor <;> simp only [Limits.signed] <;> omega

theorem tdiv_trunc (n m : Int) :
    (0 ≤ n → 0 < m → n.tdiv m * m ≤ n ∧ n < (n.tdiv m + 1) * m ∧ 0 ≤ n.tdiv m) ∧
    (n ≤ 0 → 0 < m → n ≤ n.tdiv m * m ∧ (n.tdiv m - 1) * m < n ∧ n.tdiv m ≤ 0) ∧
    (0 ≤ n → m < 0 → n.tdiv m * m ≤ n ∧ n < (n.tdiv m - 1) * m ∧ n.tdiv m ≤ 0) := by
  obtain ⟨h1, h2, h3, h4, h5⟩ := tdiv_facts n m
  generalize n.tdiv m = q at *
  generalize n.tmod m = r at *
  have e3 : q * m = m * q := by ring
  have e4 : (q + 1) * m = m * q + m := by ring
  have e5 : (q - 1) * m = m * q - m := by ring
  refine ⟨fun hn hm => ?_, fun hn hm => ?_, fun hn hm => ?_⟩
  · have := h4 hm; have := h2 hn
    refine ⟨by omega, by omega, ?_⟩
    by_contra hc
    have : q ≤ -1 := by omega
    nlinarith
  · have := h4 hm; have := h3 hn
    refine ⟨by omega, by omega, ?_⟩
    by_contra hc
    have : 1 ≤ q := by omega
    nlinarith
  · have := h5 hm; have := h2 hn
    refine ⟨by omega, by omega, ?_⟩
    by_contra hc
    have : 1 ≤ q := by omega
    nlinarith

theorem safeAdd_spec (L : Limits) (hL : TwosComplement L) (a b : Int) (ha : L.Fits a) (hb : L.Fits b) :
    safeAdd L a b = exactOrThrow L (a + b) := by
  obtain ⟨h1, h2⟩ := hL
  simp only [Limits.Fits] at ha hb
  simp only [safeAdd, exactOrThrow, mAdd, mSub, machine, bind, Except.bind, throw, throwThe,
    MonadExceptOf.throw]
  by_cases hp : b > 0
  · rw [if_pos hp, if_pos (show L.min ≤ L.max - b ∧ L.max - b ≤ L.max by omega)]
    dsimp only
    split_ifs <;> first | rfl | omega
  · rw [if_neg hp]
    by_cases hn : b < 0
    · rw [if_pos hn, if_pos (show L.min ≤ L.min - b ∧ L.min - b ≤ L.max by omega)]
      dsimp only
      split_ifs <;> first | rfl | omega
    · rw [if_neg hn]
      split_ifs <;> first | rfl | omega

theorem safeSub_spec (L : Limits) (hL : TwosComplement L) (a b : Int) (ha : L.Fits a) (hb : L.Fits b) :
    safeSub L a b = exactOrThrow L (a - b) := by
  obtain ⟨h1, h2⟩ := hL
  simp only [Limits.Fits] at ha hb
  simp only [safeSub, exactOrThrow, mAdd, mSub, machine, bind, Except.bind, throw, throwThe,
    MonadExceptOf.throw]
  by_cases hp : b > 0
  · rw [if_pos hp, if_pos (show L.min ≤ L.min + b ∧ L.min + b ≤ L.max by omega)]
    dsimp only
    split_ifs <;> first | rfl | omega
  · rw [if_neg hp]
    by_cases hn : b < 0
    · rw [if_pos hn, if_pos (show L.min ≤ L.max + b ∧ L.max + b ≤ L.max by omega)]
      dsimp only
      split_ifs <;> first | rfl | omega
    · rw [if_neg hn]
      split_ifs <;> first | rfl | omega

theorem safeInv_spec (L : Limits) (hL : TwosComplement L) (a : Int) (ha : L.Fits a) :
    safeInv L a = exactOrThrow L (-a) := by
  obtain ⟨h1, h2⟩ := hL
  simp only [Limits.Fits] at ha
  simp only [safeInv, exactOrThrow, mNeg, machine, bind, Except.bind, throw, throwThe,
    MonadExceptOf.throw]
  split_ifs <;> first | rfl | omega

theorem safeMul_spec (L : Limits) (hL : TwosComplement L) (a b : Int) (ha : L.Fits a) (hb : L.Fits b) :
    safeMul L a b = exactOrThrow L (a * b) := by
  obtain ⟨h1, h2⟩ := hL
  simp only [Limits.Fits] at ha hb
  simp only [safeMul, exactOrThrow, mMul, mDiv, machine, bind, Except.bind, throw, throwThe,
    MonadExceptOf.throw]
  by_cases hpa : a > 0
  · by_cases hpb : b > 0
    · obtain ⟨t1, t2, t3⟩ := (tdiv_trunc L.max b).1 h2 hpb
      have hle : L.max.tdiv b ≤ L.max := by nlinarith
      have hb0 : ¬ b = 0 := by omega
      have hf : L.min ≤ L.max.tdiv b ∧ L.max.tdiv b ≤ L.max := by omega
      by_cases hg : a > L.max.tdiv b
      · have : a * b > L.max := by nlinarith
        simp only [hpa, hpb, hb0, hf, hg, this, if_true, if_false, and_self]
      · have g1 : ¬ a * b > L.max := by nlinarith
        have g2 : 0 < a * b := by positivity
        have g3 : ¬ a * b < L.min := by omega
        have hf2 : L.min ≤ a * b ∧ a * b ≤ L.max := by omega
        simp only [hpa, hpb, hb0, hf, hg, g1, g3, hf2, if_true, if_false, and_self]
    · obtain ⟨t1, t2, t3⟩ := (tdiv_trunc L.min a).2.1 (by omega) hpa
      have hle : L.min ≤ L.min.tdiv a := by nlinarith
      have ha0 : ¬ a = 0 := by omega
      have hf : L.min ≤ L.min.tdiv a ∧ L.min.tdiv a ≤ L.max := by omega
      have g0 : a * b ≤ 0 := by nlinarith
      by_cases hg : b < L.min.tdiv a
      · have g1 : a * b < L.min := by nlinarith
        have g2 : ¬ a * b > L.max := by omega
        simp only [hpa, hpb, ha0, hf, hg, g1, g2, if_true, if_false, and_self]
      · have g1 : ¬ a * b < L.min := by nlinarith
        have g2 : ¬ a * b > L.max := by omega
        have hf2 : L.min ≤ a * b ∧ a * b ≤ L.max := by omega
        simp only [hpa, hpb, ha0, hf, hg, g1, g2, hf2, if_true, if_false, and_self]
  · by_cases hpb : b > 0
    · obtain ⟨t1, t2, t3⟩ := (tdiv_trunc L.min b).2.1 (by omega) hpb
      have hle : L.min ≤ L.min.tdiv b := by nlinarith
      have hb0 : ¬ b = 0 := by omega
      have hf : L.min ≤ L.min.tdiv b ∧ L.min.tdiv b ≤ L.max := by omega
      have g0 : a * b ≤ 0 := by nlinarith
      by_cases hg : a < L.min.tdiv b
      · have g1 : a * b < L.min := by nlinarith
        have g2 : ¬ a * b > L.max := by omega
        simp only [hpa, hpb, hb0, hf, hg, g1, g2, if_true, if_false, and_self]
      · have g1 : ¬ a * b < L.min := by nlinarith
        have g2 : ¬ a * b > L.max := by omega
        have hf2 : L.min ≤ a * b ∧ a * b ≤ L.max := by omega
        simp only [hpa, hpb, hb0, hf, hg, g1, g2, hf2, if_true, if_false, and_self]
    · by_cases hna : a < 0
      · obtain ⟨t1, t2, t3⟩ := (tdiv_trunc L.max a).2.2 h2 hna
        have hle : L.min ≤ L.max.tdiv a := by nlinarith
        have ha0 : ¬ a = 0 := by omega
        have hf : L.min ≤ L.max.tdiv a ∧ L.max.tdiv a ≤ L.max := by omega
        have g0 : 0 ≤ a * b := by nlinarith
        by_cases hg : b < L.max.tdiv a
        · have g1 : a * b > L.max := by nlinarith
          simp only [hpa, hpb, hna, ha0, hf, hg, g1, if_true, if_false, and_self]
        · have g1 : ¬ a * b < L.min := by omega
          have g2 : ¬ a * b > L.max := by nlinarith
          have hf2 : L.min ≤ a * b ∧ a * b ≤ L.max := by omega
          simp only [hpa, hpb, hna, ha0, hf, hg, g1, g2, hf2, if_true, if_false, and_self]
      · have : a = 0 := by omega
        subst this
        have g1 : ¬ (0 : Int) * b < L.min := by rw [zero_mul]; omega
        have g2 : ¬ (0 : Int) * b > L.max := by rw [zero_mul]; omega
        have hf2 : L.min ≤ 0 * b ∧ 0 * b ≤ L.max := by rw [zero_mul]; omega
        simp only [hpa, hpb, hna, g1, g2, hf2, if_true, if_false, and_self]

theorem tdiv_fits (L : Limits) (hL : TwosComplement L) (a b : Int) (ha : L.Fits a) (hb : b ≠ 0)
    (hc : ¬ (a = L.min ∧ b = -1)) : L.Fits (a.tdiv b) := by
  obtain ⟨h1, h2, h3, h4, h5⟩ := tdiv_facts a b
  obtain ⟨g1, g2⟩ := hL
  simp only [Limits.Fits] at *
  generalize a.tdiv b = q at *
  generalize a.tmod b = r at *
  rcases lt_or_gt_of_ne hb with h | h
  · have := h5 h
    by_cases hm1 : b = -1
    · subst hm1; omega
    · have hb2 : b ≤ -2 := by omega
      constructor <;> by_contra hcon
      · have : q ≤ L.min - 1 := by omega
        rcases le_total 0 a with h0 | h0
        · have := h2 h0; nlinarith
        · have := h3 h0; nlinarith
      · have : L.max + 1 ≤ q := by omega
        rcases le_total 0 a with h0 | h0
        · have := h2 h0; nlinarith
        · have := h3 h0; nlinarith
  · have := h4 h
    constructor <;> by_contra hcon
    · have : q ≤ L.min - 1 := by omega
      rcases le_total 0 a with h0 | h0
      · have := h2 h0; nlinarith
      · have := h3 h0; nlinarith
    · have : L.max + 1 ≤ q := by omega
      rcases le_total 0 a with h0 | h0
      · have := h2 h0; nlinarith
      · have := h3 h0; nlinarith

theorem tdiv_min (L : Limits) (hL : TwosComplement L) : L.min.tdiv (-1) = L.max + 1 := by
  rw [Int.tdiv_neg, Int.tdiv_one]; have := hL.1; omega

theorem safeDiv_spec (L : Limits) (hL : TwosComplement L) (a b : Int) (ha : L.Fits a) :
    safeDiv L a b = if b = 0 then .error (if a < 0 then .underflow else .overflow)
      else exactOrThrow L (a.tdiv b) := by
  by_cases hc : a = L.min ∧ b = -1
  · obtain ⟨rfl, rfl⟩ := hc
    have := tdiv_min L hL
    simp [safeDiv, exactOrThrow, this, bind, Except.bind, throw, throwThe, MonadExceptOf.throw]
  · by_cases hb : b = 0
    · subst hb
      simp only [safeDiv, hc, bind, Except.bind, throw, throwThe, MonadExceptOf.throw, if_true, if_false]
      split_ifs <;> rfl
    · have hf := tdiv_fits L hL a b ha hb hc
      have h1 : ¬ a.tdiv b > L.max := by have := hf.2; omega
      have h2 : ¬ a.tdiv b < L.min := by have := hf.1; omega
      have hf' : L.min ≤ a.tdiv b ∧ a.tdiv b ≤ L.max := hf
      simp only [safeDiv, hc, hb, mDiv, machine, hf', and_self, exactOrThrow, h1, h2, if_true, if_false]

theorem safeMod_spec (L : Limits) (hL : TwosComplement L) (a b : Int) (ha : L.Fits a) :
    safeMod L a b = if b = 0 then .error (if a < 0 then .underflow else .overflow)
      else if L.Fits (a.tdiv b) then .ok (a.tmod b) else .error .overflow := by
  by_cases hc : a = L.min ∧ b = -1
  · obtain ⟨rfl, rfl⟩ := hc
    have := tdiv_min L hL
    simp [safeMod, Limits.Fits, this, bind, Except.bind, throw, throwThe, MonadExceptOf.throw]
  · by_cases hb : b = 0
    · subst hb
      simp only [safeMod, hc, bind, Except.bind, throw, throwThe, MonadExceptOf.throw, if_true, if_false]
      split_ifs <;> rfl
    · have hf := tdiv_fits L hL a b ha hb hc
      simp only [safeMod, hc, hb, mMod, hf, if_true, if_false]

theorem toUnsigned_eq (p a k : Int) (h1 : 0 ≤ a + k * p) (h2 : a + k * p < p) : a.emod p = a + k * p := by
  have h3 : (a + k * p) % p = a + k * p := Int.emod_eq_of_lt h1 h2
  rw [Int.add_mul_emod_self_right] at h3
  exact h3

theorem midpoint_half (n : Nat) (a b : Int) (ha : (Limits.signed n).Fits a) (hb : (Limits.signed n).Fits b)
    (hab : a ≤ b) : midpoint (n + 1) a b = a + (b - a) / 2 := by
  simp only [Limits.Fits, Limits.signed] at ha hb
  have hp : (0 : Int) < 2 ^ n := by positivity
  have e : (2 : Int) ^ (n + 1) = 2 * 2 ^ n := by ring
  simp only [midpoint, toSigned, toUnsigned, e, Nat.add_sub_cancel]
  generalize (2 : Int) ^ n = p at *
  have hd : ((b.emod (2 * p)) - (a.emod (2 * p))).emod (2 * p) = b - a := by
    have : (b % (2 * p) - a % (2 * p)) % (2 * p) = b - a := by
      rw [← Int.sub_emod]
      exact Int.emod_eq_of_lt (by omega) (by omega)
    exact this
  rw [hd]
  have hs : (a.emod (2 * p) + (b - a) / 2).emod (2 * p) = (a + (b - a) / 2) % (2 * p) := by
    show (a % (2 * p) + (b - a) / 2) % (2 * p) = _
    rw [Int.emod_add_emod]
  rw [hs]
  have hlt : a + (b - a) / 2 ≤ b := by omega
  by_cases hneg : a + (b - a) / 2 < 0
  · have h3 : (a + (b - a) / 2) % (2 * p) = a + (b - a) / 2 + 1 * (2 * p) :=
      toUnsigned_eq _ _ 1 (by omega) (by omega)
    rw [h3, if_neg (by omega)]
    omega
  · have h3 : (a + (b - a) / 2) % (2 * p) = a + (b - a) / 2 :=
      Int.emod_eq_of_lt (by omega) (by omega)
    rw [h3, if_pos (by omega)]

theorem midpoint_bounds (n : Nat) (a b : Int) (ha : (Limits.signed n).Fits a) (hb : (Limits.signed n).Fits b)
    (hab : a < b) : a ≤ midpoint (n + 1) a b ∧ midpoint (n + 1) a b < b := by
  rw [midpoint_half n a b ha hb (by omega)]
  omega

theorem midpoint_eq (n : Nat) (a b : Int) (ha : (Limits.signed n).Fits a) (hb : (Limits.signed n).Fits b)
    (hab : a ≤ b) : midpoint (n + 1) a b = Spec.floorQuot (a + b) 2 := by
  rw [midpoint_half n a b ha hb hab, Spec.floorQuot, ← floordiv_eq_floor (a + b) 2 (by decide)]
  have := (floordiv_bounds (a + b) 2 (by decide)).1 (by decide)
  omega

end Clingcon
