import Verif.Proof.Util
import Verif.Spec.Arith

/-! Properties C01-C04: arithmetic helpers of util.hh. -/
namespace Clingcon.Props

open Clingcon Spec

/-- **C01** `floordiv` is the mathematical floor for every non-zero divisor. -/
theorem C01_floordiv_floor (n m : Int) (hm : m ≠ 0) : floordiv n m = floorQuot n m :=
  floordiv_eq_floor n m hm

example : floordiv (-7) 2 = -4 ∧ floordiv 7 (-2) = -4 ∧ floordiv (-7) (-2) = 3 ∧ floordiv (-6) 2 = -3 := by decide

/-- `floordiv` does not overflow: the quotient stays in the type unless it is `min / -1`. -/
theorem C01_floordiv_fits (k : Nat) (n m : Int) (hm : m ≠ 0) (hn : (Limits.signed k).Fits n)
    (hc : ¬ (n = (Limits.signed k).min ∧ m = -1)) : (Limits.signed k).Fits (floordiv n m) := by
  have hb := floordiv_bounds n m hm
  simp only [Limits.Fits, Limits.signed] at *
  have hp : (0 : Int) < 2 ^ k := by positivity
  generalize (2 : Int) ^ k = p at *
  generalize floordiv n m = q at *
  rcases lt_or_gt_of_ne hm with h | h
  · have := hb.2 h
    by_cases hm1 : m = -1
    · subst hm1; omega
    · have hm2 : m ≤ -2 := by omega
      constructor <;> by_contra hcon
      · have : q + 1 ≤ -p := by omega
        nlinarith
      · have : p ≤ q := by omega
        nlinarith
  · have := hb.1 h
    constructor <;> by_contra hcon
    · have : q + 1 ≤ -p := by omega
      nlinarith
    · have : p ≤ q := by omega
      nlinarith

/-- **C02** is violated by the code: `ceildiv` is not the ceiling. -/
theorem C02_ceildiv_not_ceil : ¬ ∀ n m : Int, m ≠ 0 → ceildiv n m = ceilQuot n m := by
  intro h
  have h1 := h 7 (-2) (by decide)
  have h2 : ceildiv 7 (-2) = -2 := by decide
  have h3 : ceilQuot 7 (-2) = -3 := by
    unfold ceilQuot
    rw [Int.ceil_eq_iff]
    norm_num
  rw [h2, h3] at h1
  exact absurd h1 (by decide)

theorem ceil_of_dvd (n m : Int) (hm : m ≠ 0) (hd : m ∣ n) : ceilQuot n m = n.tdiv m := by
  unfold ceilQuot
  obtain ⟨k, rfl⟩ := hd
  have hq : (m : ℚ) ≠ 0 := by exact_mod_cast hm
  rw [Int.mul_tdiv_cancel_left k hm]
  push_cast
  rw [mul_div_cancel_left₀ _ hq]
  exact Int.ceil_intCast k

/-- **C02 (part)** exactly what `ceildiv` computes: the ceiling for exact quotients, one too much if
the (inexact) quotient is negative, one too little if it is positive. The full claim
`ceildiv n m = ⌈n / m⌉` fails for every inexact quotient. -/
theorem C02_ceildiv_partial (n m : Int) (hm : m ≠ 0) :
    ceildiv n m = if m ∣ n then ceilQuot n m
      else if decide (n < 0) = decide (m < 0) then ceilQuot n m - 1 else ceilQuot n m + 1 := by
  obtain ⟨h1, h2, h3, h4, h5⟩ := tdiv_facts n m
  by_cases hd : m ∣ n
  · have h0 := (tmod_eq_zero_iff_dvd n m).2 hd
    rw [if_pos hd, ceil_of_dvd n m hm hd, ceildiv]
    simp [h0]
  · have h0 : n.tmod m ≠ 0 := fun h => hd ((tmod_eq_zero_iff_dvd n m).1 h)
    rw [if_neg hd]
    have key : ceilQuot n m = if decide (n < 0) = decide (m < 0) then n.tdiv m + 1 else n.tdiv m := by
      unfold ceilQuot
      rw [Int.ceil_eq_iff]
      generalize n.tdiv m = q at *
      generalize n.tmod m = r at *
      have e3 : q * m = m * q := by ring
      have e4 : (q + 1) * m = m * q + m := by ring
      have e5 : (q - 1) * m = m * q - m := by ring
      rcases lt_or_gt_of_ne hm with h | h
      · have hq : (m : ℚ) < 0 := by exact_mod_cast h
        rw [div_le_iff_of_neg hq, lt_div_iff_of_neg hq]
        by_cases hn : n < 0
        · have := h5 h; have := h3 (by omega)
          have a1 : n < ((q + 1 - 1)) * m := by have : (q + 1 - 1) * m = m * q := by ring
                                                omega
          have a2 : (q + 1) * m ≤ n := by omega
          simp only [hn, h, if_true]
          exact ⟨by exact_mod_cast a1, by exact_mod_cast a2⟩
        · have := h5 h; have := h2 (by omega)
          have a1 : n < (q - 1) * m := by omega
          have a2 : q * m ≤ n := by omega
          simp only [hn, h]
          simp only [decide_false, decide_true, Bool.false_eq_true, if_false]
          exact ⟨by exact_mod_cast a1, by exact_mod_cast a2⟩
      · have hq : (0 : ℚ) < m := by exact_mod_cast h
        have hm2 : ¬ m < 0 := by omega
        rw [div_le_iff₀ hq, lt_div_iff₀ hq]
        by_cases hn : n < 0
        · have := h4 h; have := h3 (by omega)
          have a1 : (q - 1) * m < n := by omega
          have a2 : n ≤ q * m := by omega
          simp only [hn, hm2, decide_false, decide_true, Bool.true_eq_false, if_false]
          exact ⟨by exact_mod_cast a1, by exact_mod_cast a2⟩
        · have := h4 h; have := h2 (by omega)
          have a1 : (q + 1 - 1) * m < n := by have : (q + 1 - 1) * m = m * q := by ring
                                              omega
          have a2 : n ≤ (q + 1) * m := by omega
          simp only [hn, hm2, if_true]
          exact ⟨by exact_mod_cast a1, by exact_mod_cast a2⟩
    rw [key, ceildiv]
    by_cases hn : n < 0 <;> by_cases hm' : m < 0 <;> simp [hn, hm', h0]

example : ¬ ((2 : Int) ∣ 7) ∧ ceildiv 7 2 = 3 := by decide

/-- **C03** checked addition: exact or an exception, never undefined behaviour. -/
theorem C03_safe_add (k : Nat) (a b : Int) (ha : (Limits.signed k).Fits a) (hb : (Limits.signed k).Fits b) :
    safeAdd (Limits.signed k) a b = exactOrThrow (Limits.signed k) (a + b) :=
  safeAdd_spec _ (twosComplement_signed k) a b ha hb

/-- **C03** checked subtraction. -/
theorem C03_safe_sub (k : Nat) (a b : Int) (ha : (Limits.signed k).Fits a) (hb : (Limits.signed k).Fits b) :
    safeSub (Limits.signed k) a b = exactOrThrow (Limits.signed k) (a - b) :=
  safeSub_spec _ (twosComplement_signed k) a b ha hb

/-- **C03** checked multiplication. -/
theorem C03_safe_mul (k : Nat) (a b : Int) (ha : (Limits.signed k).Fits a) (hb : (Limits.signed k).Fits b) :
    safeMul (Limits.signed k) a b = exactOrThrow (Limits.signed k) (a * b) :=
  safeMul_spec _ (twosComplement_signed k) a b ha hb

/-- **C03** checked negation. -/
theorem C03_safe_inv (k : Nat) (a : Int) (ha : (Limits.signed k).Fits a) :
    safeInv (Limits.signed k) a = exactOrThrow (Limits.signed k) (-a) :=
  safeInv_spec _ (twosComplement_signed k) a ha

/-- **C03** checked division: truncated quotient, an exception exactly for division by zero and for
the one quotient that does not fit. -/
theorem C03_safe_div (k : Nat) (a b : Int) (ha : (Limits.signed k).Fits a) :
    safeDiv (Limits.signed k) a b =
      if b = 0 then .error (if a < 0 then .underflow else .overflow)
      else exactOrThrow (Limits.signed k) (a.tdiv b) :=
  safeDiv_spec _ (twosComplement_signed k) a b ha

/-- **C03** checked remainder: as in C++ (sign of the dividend), an exception for division by zero
and whenever the quotient does not fit. -/
theorem C03_safe_mod (k : Nat) (a b : Int) (ha : (Limits.signed k).Fits a) :
    safeMod (Limits.signed k) a b =
      if b = 0 then .error (if a < 0 then .underflow else .overflow)
      else if (Limits.signed k).Fits (a.tdiv b) then .ok (a.tmod b) else .error .overflow :=
  safeMod_spec _ (twosComplement_signed k) a b ha

example : Limits.val.Fits 2147483647 ∧ Limits.val.Fits (-2147483648) ∧
    safeMul Limits.val (-2147483648) (-1) = .error .overflow ∧
    safeMul Limits.val 46341 46341 = .error .overflow ∧
    safeMul Limits.val 46340 46341 = .ok 2147441940 ∧
    safeDiv Limits.val (-2147483648) (-1) = .error .overflow ∧
    safeMod Limits.val (-7) 2 = .ok (-1) := by decide

/-- The checked operations never evaluate an undefined machine operation. -/
theorem C03_no_ub (k : Nat) (a b : Int) (ha : (Limits.signed k).Fits a) (hb : (Limits.signed k).Fits b) :
    safeAdd (Limits.signed k) a b ≠ .error .ub ∧ safeSub (Limits.signed k) a b ≠ .error .ub ∧
    safeMul (Limits.signed k) a b ≠ .error .ub ∧ safeDiv (Limits.signed k) a b ≠ .error .ub ∧
    safeMod (Limits.signed k) a b ≠ .error .ub ∧ safeInv (Limits.signed k) a ≠ .error .ub := by
  rw [C03_safe_add k a b ha hb, C03_safe_sub k a b ha hb, C03_safe_mul k a b ha hb, C03_safe_div k a b ha,
    C03_safe_mod k a b ha, C03_safe_inv k a ha]
  unfold exactOrThrow
  refine ⟨?_, ?_, ?_, ?_, ?_, ?_⟩ <;> split_ifs <;> simp

/-- **C04** the midpoint of an `n`-bit signed interval lies in `[a, b)`. -/
theorem C04_midpoint (n : Nat) (a b : Int) (ha : (Limits.signed n).Fits a) (hb : (Limits.signed n).Fits b)
    (hab : a < b) : a ≤ midpoint (n + 1) a b ∧ midpoint (n + 1) a b < b :=
  midpoint_bounds n a b ha hb hab

/-- **C04** the midpoint is the exact middle (rounded down). -/
theorem C04_midpoint_eq (n : Nat) (a b : Int) (ha : (Limits.signed n).Fits a) (hb : (Limits.signed n).Fits b)
    (hab : a ≤ b) : midpoint (n + 1) a b = floorQuot (a + b) 2 :=
  midpoint_eq n a b ha hb hab

example : midpoint 32 (-2147483648) 2147483647 = -1 ∧ midpoint 32 (-4) (-3) = -4 := by decide

end Clingcon.Props
