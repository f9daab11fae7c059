import Verif.Proof.IntervalSet

/-! Property C05: interval sets. -/
namespace Clingcon.Props

open Clingcon Spec

/-- State after a history of `add` calls, starting with the empty set. -/
def addAll (h : List (Int × Int)) : IntervalSet := h.foldl (fun s p => s.add p.1 p.2) []

theorem addAll_spec (h : List (Int × Int)) : Canonical (addAll h) ∧ covered (addAll h) = covered h := by
  suffices H : ∀ (s : IntervalSet), Canonical s →
      Canonical (h.foldl (fun (s : IntervalSet) p => s.add p.1 p.2) s) ∧
      covered (h.foldl (fun (s : IntervalSet) p => s.add p.1 p.2) s) = covered s ∪ covered h by
    have := H [] IntervalSet.canonical_nil
    simpa [addAll] using this
  induction h with
  | nil => intro s hs; simp [hs]
  | cons p h ih =>
    intro s hs
    have h1 := IntervalSet.add_spec s p.1 p.2 hs
    have h2 := ih _ h1.1
    refine ⟨h2.1, ?_⟩
    simp only [List.foldl_cons]
    rw [h2.2, h1.2, IntervalSet.covered_cons, Set.union_assoc]

/-- **C05** after any history of additions (empty intervals included) the set is in canonical form. -/
theorem C05_canonical (h : List (Int × Int)) : Canonical (addAll h) := (addAll_spec h).1

/-- **C05** after any history the covered integers are exactly those of the added intervals. -/
theorem C05_covered (h : List (Int × Int)) : covered (addAll h) = covered h := (addAll_spec h).2

/-- **C05** membership query. -/
theorem C05_contains (h : List (Int × Int)) (v : Int) :
    (addAll h).contains v = true ↔ ∃ p ∈ h, p.1 ≤ v ∧ v < p.2 := by
  rw [← IntervalSet.mem_covered, ← C05_covered]
  have hc := C05_canonical h
  generalize addAll h = s at *
  unfold IntervalSet.contains
  have := IntervalSet.split_last hc (fun x => decide (x ≤ v)) (by intro x y h1 h2; simp at *; omega)
  simp only [decide_eq_true_eq, decide_eq_false_iff_not] at this
  rcases this with ⟨hn, hall⟩ | ⟨x, y, hsome, hmem, hx, hall⟩
  · rw [hn]
    simp only [Bool.false_eq_true, false_iff]
    rintro ⟨p, hp, h1, _⟩
    exact hall p hp h1
  · rw [hsome]
    simp only [decide_eq_true_eq]
    constructor
    · intro h; exact ⟨(x, y), hmem, hx, h⟩
    · rintro ⟨p, hp, h1, h2⟩
      rcases hall p hp h1 with rfl | h3
      · exact h2
      · omega

/-- **C05** containment of a non-empty interval. -/
theorem C05_contains_interval (h : List (Int × Int)) (a b : Int) (hab : a < b) :
    (addAll h).containsInterval a b = true ↔ ∀ v, a ≤ v → v < b → ∃ p ∈ h, p.1 ≤ v ∧ v < p.2 := by
  have hmem : ∀ v, (∃ p ∈ h, p.1 ≤ v ∧ v < p.2) ↔ v ∈ covered (addAll h) := by
    intro v; rw [C05_covered]; rfl
  simp only [hmem]
  have hc := C05_canonical h
  generalize addAll h = s at *
  unfold IntervalSet.containsInterval
  have := IntervalSet.split_last hc (fun x => decide (x < b)) (by intro x y h1 h2; simp at *; omega)
  simp only [decide_eq_true_eq, decide_eq_false_iff_not] at this
  rcases this with ⟨hn, hall⟩ | ⟨x, y, hsome, hmem, hx, hall⟩
  · rw [hn]
    simp only [Bool.false_eq_true, false_iff]
    intro hcon
    obtain ⟨p, hp, h1, h2⟩ := hcon a le_rfl hab
    exact hall p hp (by omega)
  · rw [hsome]
    simp only [Bool.and_eq_true, Bool.not_eq_true', decide_eq_false_iff_not]
    constructor
    · intro h v hv1 hv2; exact ⟨(x, y), hmem, by simp only; omega, by simp only; omega⟩
    · intro hcon
      obtain ⟨p, hp, h1, h2⟩ := hcon (b - 1) (by omega) (by omega)
      rcases hall p hp (by omega) with rfl | h3
      · simp only at h1 h2
        refine ⟨?_, by omega⟩
        intro hax
        obtain ⟨q, hq, g1, g2⟩ := hcon (x - 1) (by omega) (by omega)
        rcases hall q hq (by omega) with rfl | h3
        · simp only at g1; omega
        · omega
      · omega

/-- **C05** intersection query. -/
theorem C05_intersects (h : List (Int × Int)) (a b : Int) :
    (addAll h).intersects a b = true ↔ ∃ v, a ≤ v ∧ v < b ∧ ∃ p ∈ h, p.1 ≤ v ∧ v < p.2 := by
  have hmem : ∀ v, (∃ p ∈ h, p.1 ≤ v ∧ v < p.2) ↔ v ∈ covered (addAll h) := by
    intro v; rw [C05_covered]; rfl
  simp only [hmem]
  have hc := C05_canonical h
  generalize addAll h = s at *
  unfold IntervalSet.intersects
  by_cases hab : b ≤ a
  · rw [if_pos hab]
    simp only [Bool.false_eq_true, false_iff]
    rintro ⟨v, h1, h2, _⟩; omega
  rw [if_neg hab]
  have := IntervalSet.split_last hc (fun x => decide (x < b)) (by intro x y h1 h2; simp at *; omega)
  simp only [decide_eq_true_eq, decide_eq_false_iff_not] at this
  rcases this with ⟨hn, hall⟩ | ⟨x, y, hsome, hmem, hx, hall⟩
  · rw [hn]
    simp only [Bool.false_eq_true, false_iff]
    rintro ⟨v, hv1, hv2, p, hp, h1, h2⟩
    exact hall p hp (by omega)
  · rw [hsome]
    simp only [decide_eq_true_eq]
    have hxy := hc.1 (x, y) hmem
    simp only at hxy
    constructor
    · intro h
      refine ⟨max a x, by omega, by omega, (x, y), hmem, by simp only; omega, by simp only; omega⟩
    · rintro ⟨v, hv1, hv2, p, hp, h1, h2⟩
      rcases hall p hp (by omega) with rfl | h3
      · simp only at h2; omega
      · omega

/-- **C05** enumeration lists exactly the members, in increasing order and without repetition. -/
theorem C05_enumerate (h : List (Int × Int)) :
    (∀ v, v ∈ (addAll h).values ↔ ∃ p ∈ h, p.1 ≤ v ∧ v < p.2) ∧ (addAll h).values.Pairwise (· < ·) := by
  refine ⟨fun v => ?_, IntervalSet.values_sorted (C05_canonical h)⟩
  rw [IntervalSet.mem_values, C05_covered]; rfl

/-- **C05** extending a set by another one: the covered integers are those of both. -/
theorem C05_extend (h h' : List (Int × Int)) :
    Canonical ((addAll h).extend (addAll h')) ∧ ∀ v, ((addAll h).extend (addAll h')).contains v = true ↔ ∃ p ∈ h ++ h', p.1 ≤ v ∧ v < p.2 := by
  have e : (addAll h).extend (addAll h') = addAll (h ++ addAll h') := by
    unfold addAll IntervalSet.extend
    rw [List.foldl_append]
  rw [e]
  refine ⟨C05_canonical _, fun v => ?_⟩
  rw [C05_contains]
  have hm := C05_covered h'
  have : (∃ p ∈ addAll h', p.1 ≤ v ∧ v < p.2) ↔ ∃ p ∈ h', p.1 ≤ v ∧ v < p.2 := by
    show v ∈ covered (addAll h') ↔ v ∈ covered h'
    rw [hm]
  simp only [List.mem_append, or_and_right, exists_or, this]

example : (addAll [(1, 3), (7, 9)]).extend (addAll [(3, 5), (8, 12)]) = [(1, 5), (7, 12)] := by decide

example : addAll [(5, 6), (1, 3), (8, 9), (3, 5), (2, 2)] = [(1, 6), (8, 9)] := by decide

example : addAll [(0, 1), (4, 5), (8, 9), (1, 8)] = [(0, 9)] := by decide

end Clingcon.Props
