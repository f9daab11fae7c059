import Verif.Model.IntervalSet
import Verif.Spec.IntervalSet
import Mathlib.Tactic.Linarith

namespace Clingcon
open Spec
namespace IntervalSet

theorem mem_covered {l : List (Int × Int)} {v : Int} : v ∈ covered l ↔ ∃ p ∈ l, p.1 ≤ v ∧ v < p.2 := Iff.rfl

@[simp] theorem covered_nil : covered [] = ∅ := by ext; simp [covered]

theorem covered_append (l m : List (Int × Int)) : covered (l ++ m) = covered l ∪ covered m := by
  ext v; simp only [covered, Set.mem_ofPred_eq, Set.mem_union, List.mem_append]
  constructor
  · rintro ⟨p, h | h, hp⟩
    · exact Or.inl ⟨p, h, hp⟩
    · exact Or.inr ⟨p, h, hp⟩
  · rintro (⟨p, h, hp⟩ | ⟨p, h, hp⟩)
    · exact ⟨p, Or.inl h, hp⟩
    · exact ⟨p, Or.inr h, hp⟩

theorem covered_cons (p : Int × Int) (l : List (Int × Int)) : covered (p :: l) = Set.Ico p.1 p.2 ∪ covered l := by
  ext v; simp [covered, Set.mem_Ico]

theorem covered_reverse (l : List (Int × Int)) : covered l.reverse = covered l := by
  ext v; simp [covered]

theorem canonical_nil : Canonical [] := ⟨by simp, List.Pairwise.nil⟩

theorem canonical_append {l m : List (Int × Int)} :
    Canonical (l ++ m) ↔ Canonical l ∧ Canonical m ∧ ∀ p ∈ l, ∀ q ∈ m, p.2 < q.1 := by
  simp only [Canonical, List.pairwise_append, List.mem_append]
  constructor
  · rintro ⟨h1, h2, h3, h4⟩
    exact ⟨⟨fun p hp => h1 p (Or.inl hp), h2⟩, ⟨fun p hp => h1 p (Or.inr hp), h3⟩, h4⟩
  · rintro ⟨⟨h1, h2⟩, ⟨h3, h4⟩, h5⟩
    exact ⟨fun p hp => hp.elim (h1 p) (h3 p), h2, h4, h5⟩

theorem canonical_cons {p : Int × Int} {l : List (Int × Int)} :
    Canonical (p :: l) ↔ p.1 < p.2 ∧ Canonical l ∧ ∀ q ∈ l, p.2 < q.1 := by
  simp only [Canonical, List.pairwise_cons, List.mem_cons]
  constructor
  · rintro ⟨h1, h2, h3⟩
    exact ⟨h1 p (Or.inl rfl), ⟨fun q hq => h1 q (Or.inr hq), h3⟩, h2⟩
  · rintro ⟨h1, ⟨h2, h3⟩, h4⟩
    exact ⟨fun q hq => hq.elim (fun e => e ▸ h1) (h2 q), h4, h3⟩

theorem emplace_mid (a b : Int) (l m : IntervalSet) (hl : ∀ p ∈ l, p.1 < a) (hm : ∀ p ∈ m, a < p.1) :
    emplace a b (l ++ m) = l ++ (a, b) :: m := by
  induction l with
  | nil =>
    cases m with
    | nil => rfl
    | cons p m => have := hm p (by simp); simp [emplace, this]
  | cons p l ih =>
    have h1 := hl p (by simp)
    simp only [List.cons_append, emplace]
    rw [if_neg (by omega), if_pos h1, ih (fun q hq => hl q (by simp [hq]))]

theorem addLoop_spec (pre : List (Int × Int)) : ∀ (a b : Int) (suf : IntervalSet), a < b →
    Canonical (pre.reverse ++ suf) → (∀ p ∈ suf, b < p.1) → (∀ p ∈ pre, p.1 ≤ b) →
    Canonical (addLoop pre a b suf) ∧
      covered (addLoop pre a b suf) = covered (pre.reverse ++ suf) ∪ Set.Ico a b := by
  induction pre with
  | nil =>
    intro a b suf hab hc hs _
    simp only [addLoop, List.reverse_nil, List.nil_append] at *
    have := emplace_mid a b [] suf (by simp) (fun p hp => by have := hs p hp; omega)
    simp only [List.nil_append] at this
    rw [this, canonical_cons, covered_cons]
    exact ⟨⟨hab, hc, fun q hq => hs q hq⟩, Set.union_comm _ _⟩
  | cons xy pre ih =>
    obtain ⟨x, y⟩ := xy
    intro a b suf hab hc hs hp
    simp only [List.reverse_cons, List.append_assoc, List.singleton_append] at hc
    obtain ⟨hc1, hc2, hc3⟩ := canonical_append.1 hc
    obtain ⟨hxy, hc4, hc5⟩ := canonical_cons.1 hc2
    simp only at hxy hc5
    have hxb := hp (x, y) (by simp)
    simp only at hxb
    simp only [addLoop, List.reverse_cons, List.append_assoc, List.singleton_append]
    by_cases hya : y < a
    · rw [if_pos hya]
      have key : emplace a b (pre.reverse ++ (x, y) :: suf) = pre.reverse ++ (x, y) :: (a, b) :: suf := by
        have := emplace_mid a b (pre.reverse ++ [(x, y)]) suf ?_ (fun p hp => by have := hs p hp; omega)
        · simpa using this
        · intro p hp
          rw [List.mem_append, List.mem_singleton] at hp
          rcases hp with hp | rfl
          · have h1 := hc3 p hp (x, y) (by simp); have h2 := hc1.1 p hp; simp only at h1; omega
          · simp only; omega
      rw [key]
      constructor
      · rw [canonical_append, canonical_cons, canonical_cons]
        refine ⟨hc1, ⟨hxy, ⟨hab, hc4, hs⟩, ?_⟩, ?_⟩
        · intro q hq
          rcases List.mem_cons.1 hq with rfl | hq
          · exact hya
          · exact hc5 q hq
        · intro p hp q hq
          rcases List.mem_cons.1 hq with rfl | hq
          · exact hc3 p hp (x, y) (by simp)
          rcases List.mem_cons.1 hq with rfl | hq
          · have h1 := hc3 p hp (x, y) (by simp); simp only at h1 ⊢; omega
          · exact hc3 p hp q (by simp [hq])
      · simp only [covered_append, covered_cons]
        ext v; simp only [Set.mem_union]; tauto
    · rw [if_neg hya]
      have hb' : (if b < y then y else b) ≥ y ∧ (if b < y then y else b) ≥ b ∧
          ((if b < y then y else b) = y ∨ (if b < y then y else b) = b) := by
        split_ifs <;> omega
      generalize hbb : (if b < y then y else b) = b' at hb'
      obtain ⟨g1, g2, g3⟩ := hb'
      have hs' : ∀ p ∈ suf, b' < p.1 := by
        intro p hps
        rcases g3 with h | h
        · have := hc5 p hps; omega
        · have := hs p hps; omega
      by_cases hxa : x < a
      · rw [if_pos hxa]
        constructor
        · rw [canonical_append, canonical_cons]
          refine ⟨hc1, ⟨by simp only; omega, hc4, hs'⟩, ?_⟩
          intro p hp q hq
          rcases List.mem_cons.1 hq with rfl | hq
          · exact hc3 p hp (x, y) (by simp)
          · exact hc3 p hp q (by simp [hq])
        · simp only [covered_append, covered_cons]
          ext v; simp only [Set.mem_union, Set.mem_Ico]
          have : (x ≤ v ∧ v < b') ↔ (x ≤ v ∧ v < y) ∨ (a ≤ v ∧ v < b) := by omega
          rw [this]; clear * -; tauto
      · rw [if_neg hxa]
        have := ih a b' suf (by omega) ?_ hs' ?_
        · refine ⟨this.1, ?_⟩
          rw [this.2]
          simp only [covered_append, covered_cons]
          ext v; simp only [Set.mem_union, Set.mem_Ico]
          have : (a ≤ v ∧ v < b') ↔ (x ≤ v ∧ v < y) ∨ (a ≤ v ∧ v < b) := by omega
          rw [this]; clear * -; tauto
        · rw [canonical_append]
          exact ⟨hc1, hc4, fun p hp q hq => hc3 p hp q (by simp [hq])⟩
        · intro p hp'
          have h1 := hc3 p (by simpa using hp') (x, y) (by simp)
          have h2 := hc1.1 p (by simpa using hp')
          simp only at h1; omega

theorem canonical_mono {l : List (Int × Int)} (h : Canonical l) : l.Pairwise (fun p q => p.1 < q.1) := by
  obtain ⟨h1, h2⟩ := h
  refine (List.pairwise_iff_forall_sublist.2 ?_)
  intro p q hpq
  have hs := hpq.subset
  have := (List.pairwise_iff_forall_sublist.1 h2) hpq
  have := h1 p (hs (by simp))
  omega

theorem takeWhile_key {l : List (Int × Int)} (P : Int → Bool) : ∀ p ∈ l.takeWhile (fun p => P p.1), P p.1 = true := by
  intro p hp
  induction l with
  | nil => simp at hp
  | cons q l ih =>
    rw [List.takeWhile_cons] at hp
    split_ifs at hp with hc
    · rcases List.mem_cons.1 hp with rfl | hp
      · exact hc
      · exact ih hp
    · simp at hp

theorem dropWhile_gt {l : List (Int × Int)} (h : Canonical l) (P : Int → Bool)
    (hP : ∀ x y, x ≤ y → P y = true → P x = true) :
    ∀ p ∈ l.dropWhile (fun p => P p.1), P p.1 = false := by
  induction l with
  | nil => simp
  | cons q l ih =>
    obtain ⟨hq, hl, hlt⟩ := canonical_cons.1 h
    intro p hp
    rw [List.dropWhile_cons] at hp
    split_ifs at hp with hc
    · exact ih hl p hp
    · rcases List.mem_cons.1 hp with rfl | hp
      · simpa using hc
      · by_contra hcon
        have := hP q.1 p.1 (by have := hlt p hp; omega) (by simpa using hcon)
        exact hc this

theorem add_spec (s : IntervalSet) (a b : Int) (hs : Canonical s) :
    Canonical (s.add a b) ∧ covered (s.add a b) = covered s ∪ Set.Ico a b := by
  unfold add
  by_cases hab : a < b
  · rw [if_neg (by simpa using hab)]
    have := addLoop_spec (s.takeWhile (fun p => decide (p.1 ≤ b))).reverse a b
      (s.dropWhile (fun p => decide (p.1 ≤ b))) hab ?_ ?_ ?_
    · simpa only [List.reverse_reverse, List.takeWhile_append_dropWhile] using this
    · simpa only [List.reverse_reverse, List.takeWhile_append_dropWhile] using hs
    · intro p hp
      have := dropWhile_gt hs (fun x => decide (x ≤ b)) (by intro x y h1 h2; simp at *; omega) p hp
      simp at this; exact this
    · intro p hp
      have := takeWhile_key (l := s) (fun x => decide (x ≤ b)) p (by simpa using hp)
      simpa using this
  · rw [if_pos hab]
    refine ⟨hs, ?_⟩
    have : Set.Ico a b = ∅ := Set.Ico_eq_empty hab
    rw [this, Set.union_empty]

/-- Splitting a canonical map at a key predicate. -/
theorem split_last {s : IntervalSet} (hs : Canonical s) (P : Int → Bool)
    (hP : ∀ x y, x ≤ y → P y = true → P x = true) :
    ((s.takeWhile (fun p => P p.1)).getLast? = none ∧ ∀ p ∈ s, P p.1 = false) ∨
    (∃ x y, (s.takeWhile (fun p => P p.1)).getLast? = some (x, y) ∧ (x, y) ∈ s ∧ P x = true ∧
      (∀ p ∈ s, P p.1 = true → p = (x, y) ∨ p.2 < x)) := by
  have hsplit := List.takeWhile_append_dropWhile (p := fun p : Int × Int => P p.1) (l := s)
  have hd := dropWhile_gt hs P hP
  have ht := takeWhile_key (l := s) P
  generalize s.takeWhile (fun p => P p.1) = t at *
  generalize s.dropWhile (fun p => P p.1) = d at *
  subst hsplit
  rcases List.eq_nil_or_concat t with rfl | ⟨t', ⟨x, y⟩, rfl⟩
  · left; refine ⟨rfl, ?_⟩; simpa using hd
  · right
    refine ⟨x, y, by simp, by simp, ht (x, y) (by simp), ?_⟩
    intro p hp hpp
    rcases List.mem_append.1 hp with hp | hp
    · have hc := (canonical_append.1 hs).1
      rw [List.concat_eq_append] at hc hp
      rcases List.mem_append.1 hp with hp | hp
      · right; exact (canonical_append.1 hc).2.2 p hp (x, y) (by simp)
      · left; simpa using hp
    · have := hd p hp; rw [this] at hpp; simp at hpp

theorem mem_range {x y v : Int} : v ∈ range x y ↔ x ≤ v ∧ v < y := by
  unfold range
  rw [List.mem_map]
  constructor
  · rintro ⟨i, hi, rfl⟩
    rw [List.mem_range] at hi; omega
  · rintro ⟨h1, h2⟩
    exact ⟨(v - x).toNat, by rw [List.mem_range]; omega, by omega⟩

theorem range_pairwise (x y : Int) : (range x y).Pairwise (· < ·) := by
  unfold range
  rw [List.pairwise_map]
  exact List.pairwise_lt_range.imp (by intro a b h; omega)

theorem mem_values {s : IntervalSet} {v : Int} : v ∈ s.values ↔ v ∈ covered s := by
  unfold values covered
  simp only [List.mem_flatMap, mem_range, Set.mem_ofPred_eq]

theorem values_sorted {s : IntervalSet} (h : Canonical s) : s.values.Pairwise (· < ·) := by
  induction s with
  | nil => simp [values]
  | cons p s ih =>
    obtain ⟨h1, h2, h3⟩ := canonical_cons.1 h
    have : values (p :: s) = range p.1 p.2 ++ values s := rfl
    rw [this, List.pairwise_append]
    refine ⟨range_pairwise _ _, ih h2, ?_⟩
    intro a ha b hb
    rw [mem_range] at ha
    obtain ⟨q, hq, hb⟩ := mem_values.1 hb
    have := h3 q hq
    omega

end IntervalSet
end Clingcon
