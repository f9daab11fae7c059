import Verif.Proof.Simplify

/-! Property C06: simplification of linear sums. -/
namespace Clingcon.Props
open Clingcon Spec

/-- **C06** The value of the sum is preserved for every assignment. -/
theorem C06_value (vec : CoVarVec) (dz : Bool) (out : CoVarVec) (rhs : Int)
    (h : simplify vec dz = .ok (out, rhs)) (σ : Nat → Int) : linVal σ vec = linVal σ out - rhs := by
  obtain ⟨out1, h1, rfl, -⟩ := simplify_ok h
  obtain ⟨-, -, -, h4⟩ := simplifyLoop_spec _ _ _ _ _ _ _ _ seenOK_nil h1
  have := h4 (linDen σ) (by
    intro v hv
    have hv := (isValidVar_false v).1 (by simpa using hv)
    unfold linDen; rw [if_neg (by omega)])
  simp only [wsum_nil] at this
  unfold linVal
  cases dz
  · simp; omega
  · simp only [if_true]; rw [wsum_filter_ne_zero]; omega

/-- **C06** The result lists each variable once, in order of first occurrence (among the terms that are
not dropped), with its total coefficient. -/
theorem C06_shape (vec : CoVarVec) (dz : Bool) (out : CoVarVec) (rhs : Int)
    (h : simplify vec dz = .ok (out, rhs)) :
    out.map Prod.snd =
      (firstOcc ((vec.filter (fun t => (dz = false ∨ t.1 ≠ 0) ∧ t.2 < 4294967295)).map Prod.snd)).filter
        (fun v => dz = false ∨ coeff v vec ≠ 0) ∧
    (out.map Prod.snd).Nodup ∧
    (∀ t ∈ out, t.2 < 4294967295 ∧ t.1 = coeff t.2 vec) ∧
    (dz = true → ∀ t ∈ out, t.1 ≠ 0) ∧
    rhs = -((vec.filter (fun t => 4294967295 ≤ t.2)).map Prod.fst).sum := by
  obtain ⟨out1, h1, rfl, -⟩ := simplify_ok h
  obtain ⟨e1, e2, e3, -⟩ := simplifyLoop_spec _ _ _ _ _ _ _ _ seenOK_nil h1
  simp only [List.map_nil, List.nil_append, List.not_mem_nil, not_false_eq_true, decide_true,
    List.filter_true] at e1
  have hk : keptVars (fun v => !isValidVar v) dz vec =
      (vec.filter (fun t => (dz = false ∨ t.1 ≠ 0) ∧ t.2 < 4294967295)).map Prod.snd := by
    unfold keptVars
    congr 1
    apply List.filter_congr
    intro t _
    rw [Bool.eq_iff_iff]
    cases dz <;> simp [isValidVar_true]
  rw [hk] at e1
  have hnd : (out1.map Prod.snd).Nodup := by rw [e1]; exact nodup_firstOcc _
  have hval : ∀ t ∈ out1, t.2 < 4294967295 := by
    intro t ht
    have : t.2 ∈ out1.map Prod.snd := List.mem_map.2 ⟨t, ht, rfl⟩
    rw [e1, mem_firstOcc] at this
    obtain ⟨u, hu, he⟩ := List.mem_map.1 this
    have := (List.mem_filter.1 hu).2
    simp only [decide_eq_true_eq] at this
    rw [← he]; exact this.2
  have hco : ∀ t ∈ out1, t.1 = coeff t.2 vec := by
    intro t ht
    have := e2 t.2 (by simp [(isValidVar_true t.2).2 (hval t ht)])
    rw [coeff_of_mem hnd ht] at this
    simpa using this
  have hrhs : rhs = -((vec.filter (fun t => 4294967295 ≤ t.2)).map Prod.fst).sum := by
    rw [e3, constSum]
    have : (fun t : Int × Nat => !isValidVar t.2) = (fun t => decide (4294967295 ≤ t.2)) := by
      funext t; rw [Bool.eq_iff_iff]; simp [isValidVar_false]
    rw [this, zero_sub]
  cases dz
  · refine ⟨?_, by simpa using hnd, ?_, by simp, hrhs⟩
    · simp [e1]
    · intro t ht; exact ⟨hval t (by simpa using ht), hco t (by simpa using ht)⟩
  · simp only [if_true]
    refine ⟨?_, ?_, ?_, ?_, hrhs⟩
    · rw [map_snd_filter out1 hnd (fun v => coeff v vec) hco, e1]
      apply List.filter_congr
      intro v _
      simp
    · exact hnd.sublist (List.filter_sublist.map Prod.snd)
    · intro t ht; exact ⟨hval t (List.mem_filter.1 ht).1, hco t (List.mem_filter.1 ht).1⟩
    · intro _ t ht; simpa using (List.mem_filter.1 ht).2

/-- **C06** Coefficients and right-hand side are in the valid value range, and the sum stays within
64 bits for all assignments of valid values. -/
theorem C06_range (vec : CoVarVec) (dz : Bool) (out : CoVarVec) (rhs : Int)
    (h : simplify vec dz = .ok (out, rhs)) :
    |rhs| ≤ 2 ^ 30 - 1 ∧ (∀ t ∈ out, |t.1| ≤ 2 ^ 30 - 1) ∧
    |rhs| + (out.map (fun t => |t.1| * (2 ^ 30 - 1))).sum ≤ 2 ^ 63 := by
  obtain ⟨out1, -, -, h1, h2, ⟨mn, mx⟩, h3⟩ := simplify_ok h
  obtain ⟨i1, i2, i3, i4⟩ := checkRange_ok _ _ _ _ _ _ h3
  rw [max_val, min_val] at *
  have hf : Limits.sum.Fits rhs := by rw [sum_fits]; omega
  have := i4 hf hf
  rw [sum_fits, sum_fits] at this
  refine ⟨by rw [abs_le]; omega, fun t ht => by rw [abs_le]; have := i1 t ht; omega, ?_⟩
  simp only [List.filter_true] at i2 i3
  have hs : (out.map (fun t => |t.1| * (2 ^ 30 - 1))).sum = (out.map (fun t => |t.1| * 1073741823)).sum := by
    norm_num
  rw [hs]
  rcases abs_cases rhs with ⟨h, -⟩ | ⟨h, -⟩ <;> rw [h] <;> omega

/-- **C06** Simplification succeeds for all sums whose coefficients add up to a valid value. -/
theorem C06_total (vec : CoVarVec) (dz : Bool) (h : (vec.map (fun t => |t.1|)).sum ≤ 2 ^ 30 - 1) :
    ∃ out rhs, simplify vec dz = .ok (out, rhs) := by
  obtain ⟨out1, rhs, h1, h2⟩ := simplifyLoop_total (fun v => !isValidVar v) dz vec [] [] 0 seenOK_nil
    (by rw [max_val]; simp [absSum]; omega)
  unfold simplify
  rw [h1]
  simp only [bind, Except.bind]
  have a1 := absSum_nonneg out1
  have b1 := neg_abs_le rhs
  have c1 := le_abs_self rhs
  rw [max_val] at h2
  have hv : checkValidValue rhs = .ok rhs := by
    unfold checkValidValue
    rw [if_neg (by rw [min_val]; omega), if_neg (by rw [max_val]; omega)]
  rw [hv]
  have hf : absSum (if dz = true then out1.filter (fun t => t.1 != 0) else out1) ≤ absSum out1 := by
    split_ifs
    · exact absSum_filter _ _
    · exact le_refl _
  generalize (if dz = true then out1.filter (fun t => t.1 != 0) else out1) = out2 at *
  obtain ⟨mm, hm⟩ := checkRange_total out2 rhs rhs (by rw [max_val]; omega) (by rw [max_val]; omega)
    (by rw [max_val]; omega) (by rw [max_val]; omega) (by rw [min_val]; omega)
  simp only [hm]
  exact ⟨_, _, rfl⟩

example : simplify [(3, 7), (2, 4294967295), (-1, 2), (2, 7), (1, 2), (4, 9)] true = .ok ([(5, 7), (4, 9)], -2) := by
  decide

example : simplify [(2147483647, 7), (1, 7)] true = .error .overflow := by decide

end Clingcon.Props
