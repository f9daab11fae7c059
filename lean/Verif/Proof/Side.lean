import Verif.Model.Level
import Mathlib.Data.List.Nodup
import Mathlib.Data.List.TakeWhile
import Mathlib.Algebra.Order.Ring.Int

/-! Bounds of variables, their stacks and undo lists: the part of the bookkeeping concerned with one of the
two bounds. -/
namespace Clingcon

variable {α : Type}

/-- The part of a list belonging to each level. -/
def cuts (off : Lvl → Nat) : List Lvl → List α → List (Nat × List α)
  | [], _ => []
  | l :: ls, u => (l.level, u.drop (off l)) :: cuts off ls (u.take (off l))

/-- The offsets are in the range of the list. -/
def CutOK (off : Lvl → Nat) : List Lvl → List α → Prop
  | [], u => u = []
  | l :: ls, u => off l ≤ u.length ∧ CutOK off ls (u.take (off l))

theorem cuts_levels {off : Lvl → Nat} : ∀ {ls : List Lvl} {u : List α}, (cuts off ls u).map (·.1) = ls.map (·.level)
  | [], _ => rfl
  | l :: ls, u => by simp [cuts, cuts_levels]

theorem cuts_append {off : Lvl → Nat} {l : Lvl} {ls : List Lvl} {u x : List α} (h : CutOK off (l :: ls) u) :
    cuts off (l :: ls) (u ++ x) = (l.level, u.drop (off l) ++ x) :: cuts off ls (u.take (off l)) ∧ CutOK off (l :: ls) (u ++ x) := by
  have h1 : (u ++ x).take (off l) = u.take (off l) := by rw [List.take_append_of_le_length h.1]
  refine ⟨?_, ?_⟩
  · rw [cuts, h1, List.drop_append_of_le_length h.1]
  · refine ⟨?_, ?_⟩
    · rw [List.length_append]; exact le_trans h.1 (by omega)
    · rw [h1]; exact h.2

theorem cuts_push {off : Lvl → Nat} {l : Lvl} {ls : List Lvl} {u : List α} (h : off l = u.length) (hc : CutOK off ls u) :
    cuts off (l :: ls) u = (l.level, []) :: cuts off ls u ∧ CutOK off (l :: ls) u := by
  refine ⟨?_, ?_⟩
  · rw [cuts, h, List.drop_length, List.take_length]
  · exact ⟨by omega, by rw [h, List.take_length]; exact hc⟩

/-- The bound a variable had when a level was opened. -/
def atLevel (st : List (Nat × Int)) (val : Int) (k : Nat) : Int :=
  match (st.takeWhile (fun p => decide (k ≤ p.1))).getLast? with
  | some p => p.2
  | none => val

theorem atLevel_push {st : List (Nat × Int)} {val x : Int} {k k' : Nat} (h : k' ≤ k) :
    atLevel ((k, val) :: st) x k' = atLevel st val k' := by
  unfold atLevel
  rw [List.takeWhile_cons_of_pos (by simpa using h), List.getLast?_cons]
  cases (st.takeWhile (fun p => decide (k' ≤ p.1))).getLast? <;> rfl

theorem atLevel_empty {st : List (Nat × Int)} {val : Int} {k : Nat} (h : ∀ p ∈ st, p.1 < k) : atLevel st val k = val := by
  unfold atLevel
  cases st with
  | nil => rfl
  | cons p st =>
    rw [List.takeWhile_cons_of_neg (by have := h p (List.mem_cons_self ..); simpa using this)]; rfl

/-- The value does not matter if the stack has an entry for the level or a later one. -/
theorem atLevel_val {st : List (Nat × Int)} {val x : Int} {k : Nat} (h : ∃ p, st.head? = some p ∧ k ≤ p.1) : atLevel st x k = atLevel st val k := by
  obtain ⟨p, hp, hk⟩ := h
  cases st with
  | nil => cases hp
  | cons q st =>
    injection hp with hp
    subst hp
    obtain ⟨a, b⟩ := q
    rw [atLevel_push (st := st) (val := b) hk, atLevel_push hk]

/-- The bookkeeping for lower bounds (or upper bounds with all signs changed): `segs` are the levels
together with the variables to be undone, `val` the bounds, `diff` the pending differences, `stk` the stacks
of bounds, and `chg` the variables with pending differences. -/
structure SideInv (segs : List (Nat × List Nat)) (val diff : Nat → Int) (stk : Nat → List (Nat × Int)) (chg : List Nat) : Prop where
  nodup : ∀ s ∈ segs, s.2.Nodup
  zero : ∀ s ∈ segs, s.1 = 0 → s.2 = []
  mem : ∀ s ∈ segs, 0 < s.1 → ∀ v, v ∈ s.2 ↔ ∃ b, (s.1, b) ∈ stk v
  opened : ∀ v, ∀ p ∈ stk v, 0 < p.1 ∧ ∃ s ∈ segs, s.1 = p.1
  sorted : ∀ v, (stk v).Pairwise (fun p q => q.1 < p.1)
  mono : ∀ v, (stk v).Pairwise (fun p q => q.2 ≤ p.2)
  top : ∀ v, ∀ p ∈ stk v, p.2 ≤ val v - diff v
  nonneg : ∀ v, 0 ≤ diff v
  chgd : ∀ v, v ∈ chg ↔ diff v ≠ 0
  nodupC : chg.Nodup
  pend : ∀ v, diff v ≠ 0 → ∀ s, segs.head? = some s → 0 < s.1 → v ∈ s.2

namespace SideInv
variable {segs : List (Nat × List Nat)} {val diff : Nat → Int} {stk : Nat → List (Nat × Int)} {chg : List Nat}

theorem at_le (h : SideInv segs val diff stk chg) (v k : Nat) : atLevel (stk v) (val v) k ≤ val v ∧
    (0 < k → (diff v ≠ 0 → ∃ s, segs.head? = some s ∧ k ≤ s.1) → atLevel (stk v) (val v) k ≤ val v - diff v) := by
  unfold atLevel
  cases hl : ((stk v).takeWhile (fun p => decide (k ≤ p.1))).getLast? with
  | none =>
    refine ⟨le_refl (val v), fun hk hd => ?_⟩
    show val v ≤ val v - diff v
    by_cases h0 : diff v = 0
    · omega
    · obtain ⟨s, hs, hks⟩ := hd h0
      have hm := h.pend v h0 s hs (by omega)
      have hseg : s ∈ segs := List.mem_of_mem_head? hs
      obtain ⟨b, hb⟩ := (h.mem s hseg (by omega) v).mp hm
      have : (stk v).takeWhile (fun p => decide (k ≤ p.1)) = [] := List.getLast?_eq_none_iff.mp hl
      cases he : stk v with
      | nil => rw [he] at hb; cases hb
      | cons p st =>
        exfalso
        rw [he] at this hb
        have hp : ¬ (k ≤ p.1) := by
          intro hc
          rw [List.takeWhile_cons_of_pos (by simpa using hc)] at this
          cases this
        have hsort := h.sorted v
        rw [he] at hsort
        rcases List.mem_cons.mp hb with rfl | hb
        · exact hp hks
        · have := List.rel_of_pairwise_cons hsort hb
          simp only at this
          omega
  | some p =>
    have hp : p ∈ stk v := List.takeWhile_subset _ (List.mem_of_getLast? hl)
    have := h.top v p hp
    have := h.nonneg v
    exact ⟨by show p.2 ≤ _; omega, fun _ _ => by show p.2 ≤ _; omega⟩

theorem at_mono (h : SideInv segs val diff stk chg) (v : Nat) {k k' : Nat} (hk : k ≤ k') :
    atLevel (stk v) (val v) k ≤ atLevel (stk v) (val v) k' := by
  have hs := h.mono v
  have hv : ∀ p ∈ stk v, p.2 ≤ val v := fun p hp => by have := h.top v p hp; have := h.nonneg v; omega
  generalize stk v = st at *
  generalize val v = x at *
  induction st generalizing x with
  | nil => simp [atLevel]
  | cons p st ih =>
    obtain ⟨a, b⟩ := p
    rw [List.pairwise_cons] at hs
    by_cases h1 : k' ≤ a
    · rw [atLevel_push h1, atLevel_push (by omega)]
      exact ih hs.2 b (fun p hp => hs.1 p hp)
    · have e2 : atLevel ((a, b) :: st) x k' = x := by
        unfold atLevel; rw [List.takeWhile_cons_of_neg (by simpa using h1)]; rfl
      rw [e2]
      by_cases h2 : k ≤ a
      · rw [atLevel_push h2]
        have hle : atLevel st b k ≤ b := by
          unfold atLevel
          cases hl : (st.takeWhile (fun p => decide (k ≤ p.1))).getLast? with
          | none => exact le_refl b
          | some p => exact hs.1 p (List.takeWhile_subset _ (List.mem_of_getLast? hl))
        have := hv (a, b) (List.mem_cons_self ..)
        simp only at this
        omega
      · unfold atLevel; rw [List.takeWhile_cons_of_neg (by simpa using h2)]; exact le_refl x

/-- A level is opened while nothing is pending. -/
theorem push (h : SideInv segs val diff stk []) {k : Nat} (hk : ∀ s ∈ segs, s.1 < k) : SideInv ((k, []) :: segs) val diff stk [] where
  nodup s hs := by rcases List.mem_cons.mp hs with rfl | hs; exact List.nodup_nil; exact h.nodup s hs
  zero s hs h0 := by rcases List.mem_cons.mp hs with rfl | hs; rfl; exact h.zero s hs h0
  mem s hs h0 v := by
    rcases List.mem_cons.mp hs with rfl | hs
    · constructor
      · intro hm; cases hm
      · rintro ⟨b, hb⟩
        obtain ⟨-, s, hs, he⟩ := h.opened v _ hb
        have := hk s hs
        simp only at he; omega
    · exact h.mem s hs h0 v
  opened v p hp := by
    obtain ⟨h1, s, hs, he⟩ := h.opened v p hp
    exact ⟨h1, s, List.mem_cons_of_mem _ hs, he⟩
  sorted := h.sorted
  mono := h.mono
  top := h.top
  nonneg := h.nonneg
  chgd := h.chgd
  nodupC := h.nodupC
  pend v hv := absurd ((h.chgd v).mpr hv) (by simp)

theorem pushed_iff (h : SideInv segs val diff stk chg) {s : Nat × List Nat} {ss : List (Nat × List Nat)} (hs : segs = s :: ss)
    (hl : ∀ t ∈ ss, t.1 < s.1) (v : Nat) : (∃ b, (s.1, b) ∈ stk v) ↔ ∃ b, (stk v).head? = some (s.1, b) := by
  constructor
  · rintro ⟨b, hb⟩
    cases he : stk v with
    | nil => rw [he] at hb; cases hb
    | cons p st =>
      rw [he] at hb
      rcases List.mem_cons.mp hb with rfl | hb
      · exact ⟨b, rfl⟩
      · have hsort := h.sorted v
        rw [he] at hsort
        have h1 := List.rel_of_pairwise_cons hsort hb
        obtain ⟨-, t, ht, hte⟩ := h.opened v p (by rw [he]; exact List.mem_cons_self ..)
        rw [hs] at ht
        simp only at h1
        rcases List.mem_cons.mp ht with rfl | ht
        · omega
        · have := hl t ht; omega
  · rintro ⟨b, hb⟩
    exact ⟨b, List.mem_of_mem_head? hb⟩

/-- A bound is tightened on the current level. -/
theorem tighten {k : Nat} {us : List Nat} {ss : List (Nat × List Nat)} (h : SideInv ((k, us) :: ss) val diff stk chg)
    (hl : ∀ t ∈ ss, t.1 < k) {v : Nat} {x : Int} (hx : val v < x) (fresh : Bool)
    (hf : fresh = true ↔ 0 < k ∧ ¬ ∃ b, (stk v).head? = some (k, b)) :
    SideInv ((k, if fresh then us ++ [v] else us) :: ss) (Function.update val v x) (Function.update diff v (diff v + (x - val v)))
        (Function.update stk v (if fresh then (k, val v) :: stk v else stk v)) (if diff v = 0 then chg ++ [v] else chg) ∧
      ∀ k', 0 < k' → k' ≤ k → ∀ w, atLevel (Function.update stk v (if fresh then (k, val v) :: stk v else stk v) w)
        (Function.update val v x w) k' = atLevel (stk w) (val w) k' := by
  have hpi := h.pushed_iff rfl hl v
  have hmem := h.mem (k, us) (List.mem_cons_self ..)
  simp only at hpi hmem
  have hnm : fresh = true → v ∉ us := by
    intro hfr hm
    obtain ⟨h1, h2⟩ := hf.mp hfr
    exact h2 (hpi.mp ((hmem h1 v).mp hm))
  have hd0 : fresh = true → diff v = 0 := by
    intro hfr
    by_contra hd
    exact hnm hfr (h.pend v hd _ rfl (hf.mp hfr).1)
  have hold : fresh = false → 0 < k → v ∈ us := by
    intro hfr hk
    refine (hmem hk v).mpr (hpi.mpr ?_)
    by_contra hc
    exact absurd (hf.mpr ⟨hk, hc⟩) (by simp [hfr])
  have hmemS : ∀ w p, p ∈ Function.update stk v (if fresh then (k, val v) :: stk v else stk v) w →
      p ∈ stk w ∨ (w = v ∧ fresh = true ∧ p = (k, val v)) := by
    intro w p hp
    by_cases hw : w = v
    · subst hw
      rw [Function.update_self] at hp
      cases fresh with
      | true => rcases List.mem_cons.mp hp with rfl | hp; exact Or.inr ⟨rfl, rfl, rfl⟩; exact Or.inl hp
      | false => exact Or.inl hp
    · rw [Function.update_of_ne hw] at hp; exact Or.inl hp
  have hsub : ∀ w p, p ∈ stk w → p ∈ Function.update stk v (if fresh then (k, val v) :: stk v else stk v) w := by
    intro w p hp
    by_cases hw : w = v
    · subst hw
      rw [Function.update_self]
      cases fresh with
      | true => exact List.mem_cons_of_mem _ hp
      | false => exact hp
    · rw [Function.update_of_ne hw]; exact hp
  have hlev : ∀ p ∈ stk v, fresh = true → p.1 < k := by
    intro p hp hfr
    obtain ⟨h0, t, ht, hte⟩ := h.opened v p hp
    rcases List.mem_cons.mp ht with rfl | ht
    · exfalso
      apply (hf.mp hfr).2
      apply hpi.mp
      exact ⟨p.2, by simp only at hte; rw [hte]; exact hp⟩
    · have := hl t ht; omega
  have hval : ∀ p ∈ stk v, p.2 ≤ val v := fun p hp => by have := h.top v p hp; have := h.nonneg v; omega
  refine ⟨⟨?_, ?_, ?_, ?_, ?_, ?_, ?_, ?_, ?_, ?_, ?_⟩, ?_⟩
  · intro s hs
    rcases List.mem_cons.mp hs with rfl | hs
    · have := h.nodup (k, us) (List.mem_cons_self ..)
      cases hfr : fresh with
      | true =>
        simp only [if_true]
        rw [List.nodup_append]
        exact ⟨this, by simp, fun a ha b hb => by
          rw [List.mem_singleton] at hb; subst hb; rintro rfl; exact hnm hfr ha⟩
      | false => exact this
    · exact h.nodup s (List.mem_cons_of_mem _ hs)
  · intro s hs h0
    rcases List.mem_cons.mp hs with rfl | hs
    · simp only at h0 ⊢
      have hfr : fresh = false := by
        cases hfr : fresh with
        | false => rfl
        | true => have := (hf.mp hfr).1; omega
      rw [hfr]
      exact h.zero (k, us) (List.mem_cons_self ..) h0
    · exact h.zero s (List.mem_cons_of_mem _ hs) h0
  · intro s hs h0 w
    rcases List.mem_cons.mp hs with rfl | hs
    · simp only at h0 ⊢
      cases hfr : fresh with
      | true =>
        simp only [if_true, List.mem_append, List.mem_singleton]
        rw [hmem h0 w]
        by_cases hw : w = v
        · subst hw; simp
        · rw [Function.update_of_ne hw]; simp [hw]
      | false =>
        simp only [Bool.false_eq_true, if_false]
        rw [hmem h0 w, Function.update_eq_self]
    · rw [h.mem s (List.mem_cons_of_mem _ hs) h0 w]
      constructor
      · rintro ⟨b, hb⟩; exact ⟨b, hsub w _ hb⟩
      · rintro ⟨b, hb⟩
        rcases hmemS w _ hb with hb | ⟨-, -, he⟩
        · exact ⟨b, hb⟩
        · injection he with he1 he2
          have := hl s hs; omega
  · intro w p hp
    rcases hmemS w p hp with hp | ⟨-, hfr, rfl⟩
    · obtain ⟨h1, t, ht, hte⟩ := h.opened w p hp
      refine ⟨h1, ?_⟩
      rcases List.mem_cons.mp ht with rfl | ht
      · exact ⟨_, List.mem_cons_self .., hte⟩
      · exact ⟨t, List.mem_cons_of_mem _ ht, hte⟩
    · exact ⟨(hf.mp hfr).1, _, List.mem_cons_self .., rfl⟩
  · intro w
    by_cases hw : w = v
    · subst hw
      rw [Function.update_self]
      cases hfr : fresh with
      | true => simp only [if_true]; exact List.pairwise_cons.mpr ⟨fun p hp => hlev p hp hfr, h.sorted w⟩
      | false => exact h.sorted w
    · rw [Function.update_of_ne hw]; exact h.sorted w
  · intro w
    by_cases hw : w = v
    · subst hw
      rw [Function.update_self]
      cases hfr : fresh with
      | true => simp only [if_true]; exact List.pairwise_cons.mpr ⟨fun p hp => hval p hp, h.mono w⟩
      | false => exact h.mono w
    · rw [Function.update_of_ne hw]; exact h.mono w
  · intro w p hp
    by_cases hw : w = v
    · subst hw
      rw [Function.update_self, Function.update_self]
      rcases hmemS w p hp with hp | ⟨-, hfr, rfl⟩
      · have := h.top w p hp; omega
      · have := hd0 hfr; simp only; omega
    · rw [Function.update_of_ne hw, Function.update_of_ne hw]
      rcases hmemS w p hp with hp | ⟨he, -, -⟩
      · exact h.top w p hp
      · exact absurd he hw
  · intro w
    by_cases hw : w = v
    · subst hw; rw [Function.update_self]; have := h.nonneg w; omega
    · rw [Function.update_of_ne hw]; exact h.nonneg w
  · intro w
    by_cases hd : diff v = 0
    · rw [if_pos hd, List.mem_append, List.mem_singleton, h.chgd]
      by_cases hw : w = v
      · subst hw; rw [Function.update_self]; simp; omega
      · rw [Function.update_of_ne hw]; simp [hw]
    · rw [if_neg hd, h.chgd]
      by_cases hw : w = v
      · subst hw; rw [Function.update_self]
        have := h.nonneg w
        exact ⟨fun _ => by omega, fun _ => hd⟩
      · rw [Function.update_of_ne hw]
  · by_cases hd : diff v = 0
    · rw [if_pos hd, List.nodup_append]
      exact ⟨h.nodupC, by simp, fun a ha b hb => by
        rw [List.mem_singleton] at hb; subst hb; rintro rfl; exact (h.chgd a).mp ha hd⟩
    · rw [if_neg hd]; exact h.nodupC
  · intro w hw s hs h0
    simp only [List.head?_cons, Option.some.injEq] at hs
    subst hs
    simp only at h0 ⊢
    by_cases hwv : w = v
    · subst hwv
      cases hfr : fresh with
      | true => simp
      | false => exact hold hfr h0
    · rw [Function.update_of_ne hwv] at hw
      have := h.pend w hw _ rfl h0
      cases fresh with
      | true => exact List.mem_append_left _ this
      | false => exact this
  · intro k' h0 hk w
    by_cases hw : w = v
    · subst hw
      rw [Function.update_self, Function.update_self]
      cases hfr : fresh with
      | true => exact atLevel_push hk
      | false =>
        simp only [Bool.false_eq_true, if_false]
        obtain ⟨b, hb⟩ := hpi.mp ((hmem (by omega) w).mp (hold hfr (by omega)))
        exact atLevel_val ⟨_, hb, hk⟩
    · rw [Function.update_of_ne hw, Function.update_of_ne hw]

/-- The bound of a variable is restored. -/
theorem pop {k : Nat} {v : Nat} {us : List Nat} {ss : List (Nat × List Nat)} (h : SideInv ((k, v :: us) :: ss) val diff stk chg)
    (hl : ∀ t ∈ ss, t.1 < k) {j : Nat} {b : Int} {st : List (Nat × Int)} (hs : stk v = (j, b) :: st) :
    j = k ∧ b ≤ val v - diff v ∧ atLevel (stk v) (val v) k = b ∧
    SideInv ((k, us) :: ss) (Function.update val v b) (Function.update diff v 0) (Function.update stk v st) (chg.erase v) ∧
      ∀ k', k' ≤ k → ∀ w, atLevel (Function.update stk v st w) (Function.update val v b w) k' = atLevel (stk w) (val w) k' := by
  have hk0 : 0 < k := by
    rcases Nat.eq_zero_or_pos k with h0 | h0
    · have := h.zero _ (List.mem_cons_self ..) h0; cases this
    · exact h0
  obtain ⟨b', hb'⟩ := (h.pushed_iff rfl hl v).mp ((h.mem _ (List.mem_cons_self ..) hk0 v).mp (List.mem_cons_self ..))
  rw [hs] at hb'
  simp only [List.head?_cons, Option.some.injEq, Prod.mk.injEq] at hb'
  obtain ⟨rfl, rfl⟩ := hb'
  have hst : ∀ p ∈ st, p.1 < j := by
    have := h.sorted v; rw [hs] at this; exact (List.pairwise_cons.mp this).1
  have hsub : ∀ w p, p ∈ Function.update stk v st w → p ∈ stk w := by
    intro w p hp
    by_cases hw : w = v
    · subst hw; rw [Function.update_self] at hp; rw [hs]; exact List.mem_cons_of_mem _ hp
    · rw [Function.update_of_ne hw] at hp; exact hp
  have hnd := h.nodup _ (List.mem_cons_self ..)
  simp only [List.nodup_cons] at hnd
  refine ⟨rfl, h.top v (j, b) (by rw [hs]; exact List.mem_cons_self ..), ?_, ⟨?_, ?_, ?_, ?_, ?_, ?_, ?_, ?_, ?_, ?_, ?_⟩, ?_⟩
  · rw [hs, atLevel_push (le_refl _)]
    exact atLevel_empty hst
  · intro s hs'
    rcases List.mem_cons.mp hs' with rfl | hs'
    · exact hnd.2
    · exact h.nodup s (List.mem_cons_of_mem _ hs')
  · intro s hs' h0
    rcases List.mem_cons.mp hs' with rfl | hs'
    · simp only at h0; omega
    · exact h.zero s (List.mem_cons_of_mem _ hs') h0
  · intro s hs' h0 w
    rcases List.mem_cons.mp hs' with rfl | hs'
    · simp only at h0 ⊢
      have := h.mem _ (List.mem_cons_self ..) hk0 w
      simp only [List.mem_cons] at this
      by_cases hw : w = v
      · subst hw
        rw [Function.update_self]
        exact ⟨fun hm => absurd hm hnd.1, fun ⟨b', hb⟩ => by have := hst _ hb; simp at this⟩
      · rw [Function.update_of_ne hw, ← this]; simp [hw]
    · rw [h.mem s (List.mem_cons_of_mem _ hs') h0 w]
      by_cases hw : w = v
      · subst hw
        rw [Function.update_self, hs]
        have := hl s hs'
        constructor
        · rintro ⟨b', hb⟩
          rcases List.mem_cons.mp hb with he | hb
          · injection he with he _; omega
          · exact ⟨b', hb⟩
        · rintro ⟨b', hb⟩; exact ⟨b', List.mem_cons_of_mem _ hb⟩
      · rw [Function.update_of_ne hw]
  · intro w p hp
    obtain ⟨h1, t, ht, hte⟩ := h.opened w p (hsub w p hp)
    refine ⟨h1, ?_⟩
    rcases List.mem_cons.mp ht with rfl | ht
    · exact ⟨_, List.mem_cons_self .., hte⟩
    · exact ⟨t, List.mem_cons_of_mem _ ht, hte⟩
  · intro w
    by_cases hw : w = v
    · subst hw; rw [Function.update_self]; have := h.sorted w; rw [hs] at this; exact (List.pairwise_cons.mp this).2
    · rw [Function.update_of_ne hw]; exact h.sorted w
  · intro w
    by_cases hw : w = v
    · subst hw; rw [Function.update_self]; have := h.mono w; rw [hs] at this; exact (List.pairwise_cons.mp this).2
    · rw [Function.update_of_ne hw]; exact h.mono w
  · intro w p hp
    by_cases hw : w = v
    · subst hw
      rw [Function.update_self] at hp
      rw [Function.update_self, Function.update_self]
      have := h.mono w; rw [hs] at this
      have := (List.pairwise_cons.mp this).1 p hp
      simp only at this; omega
    · have := h.top w p (hsub w p hp)
      rw [Function.update_of_ne hw, Function.update_of_ne hw]; exact this
  · intro w
    by_cases hw : w = v
    · subst hw; rw [Function.update_self]
    · rw [Function.update_of_ne hw]; exact h.nonneg w
  · intro w
    rw [h.nodupC.mem_erase_iff]
    by_cases hw : w = v
    · subst hw; simp
    · rw [Function.update_of_ne hw, h.chgd]; simp [hw]
  · exact h.nodupC.erase v
  · intro w hw s hs' h0
    simp only [List.head?_cons, Option.some.injEq] at hs'
    subst hs'
    by_cases hwv : w = v
    · subst hwv; rw [Function.update_self] at hw; exact absurd rfl hw
    · rw [Function.update_of_ne hwv] at hw
      have := h.pend w hw _ rfl h0
      simp only [List.mem_cons, hwv, false_or] at this
      exact this
  · intro k' hk w
    by_cases hw : w = v
    · subst hw
      rw [Function.update_self, Function.update_self, hs, atLevel_push hk]
    · rw [Function.update_of_ne hw, Function.update_of_ne hw]

/-- A level is left after its bounds have been restored. -/
theorem leave {k : Nat} {ss : List (Nat × List Nat)} (h : SideInv ((k, []) :: ss) val diff stk chg) (hk : 0 < k) (hl : ∀ t ∈ ss, t.1 < k) :
    SideInv ss val diff stk [] ∧ (∀ v, diff v = 0) ∧ ∀ v, atLevel (stk v) (val v) k = val v := by
  have hd : ∀ v, diff v = 0 := by
    intro v
    by_contra hv
    have := h.pend v hv _ rfl hk
    cases this
  have hstk : ∀ v, ∀ p ∈ stk v, p.1 < k ∧ ∃ s ∈ ss, s.1 = p.1 := by
    intro v p hp
    obtain ⟨-, t, ht, hte⟩ := h.opened v p hp
    rcases List.mem_cons.mp ht with rfl | ht
    · exfalso
      have := (h.mem _ (List.mem_cons_self ..) hk v).mpr ⟨p.2, by simp only at hte ⊢; rw [hte]; exact hp⟩
      cases this
    · exact ⟨by have := hl t ht; omega, t, ht, hte⟩
  refine ⟨⟨?_, ?_, ?_, ?_, h.sorted, h.mono, h.top, h.nonneg, ?_, List.nodup_nil, ?_⟩, hd, ?_⟩
  · exact fun s hs => h.nodup s (List.mem_cons_of_mem _ hs)
  · exact fun s hs => h.zero s (List.mem_cons_of_mem _ hs)
  · exact fun s hs => h.mem s (List.mem_cons_of_mem _ hs)
  · exact fun v p hp => ⟨(h.opened v p hp).1, (hstk v p hp).2⟩
  · intro v; simp [hd v]
  · intro v hv; exact absurd (hd v) hv
  · exact fun v => atLevel_empty (fun p hp => (hstk v p hp).1)

/-- The pending difference of a variable has been delivered. -/
theorem delivered {v : Nat} (h : SideInv segs val diff stk (v :: chg)) : SideInv segs val (Function.update diff v 0) stk chg := by
  have hnd := h.nodupC
  rw [List.nodup_cons] at hnd
  refine ⟨h.nodup, h.zero, h.mem, h.opened, h.sorted, h.mono, ?_, ?_, ?_, hnd.2, ?_⟩
  · intro w p hp
    have h1 := h.top w p hp
    have h2 := h.nonneg w
    by_cases hw : w = v
    · subst hw; rw [Function.update_self]; omega
    · rw [Function.update_of_ne hw]; exact h1
  · intro w
    by_cases hw : w = v
    · subst hw; rw [Function.update_self]
    · rw [Function.update_of_ne hw]; exact h.nonneg w
  · intro w
    have := h.chgd w
    by_cases hw : w = v
    · subst hw; rw [Function.update_self]; simp [hnd.1]
    · rw [Function.update_of_ne hw, ← this]; simp [hw]
  · intro w hw s hs h0
    by_cases hwv : w = v
    · subst hwv; rw [Function.update_self] at hw; exact absurd rfl hw
    · rw [Function.update_of_ne hwv] at hw; exact h.pend w hw s hs h0

/-- A new variable. -/
theorem extend (h : SideInv segs val diff stk chg) {n : Nat} (hd : diff n = 0) (hs : stk n = []) (x : Int) :
    SideInv segs (Function.update val n x) diff stk chg := by
  refine ⟨h.nodup, h.zero, h.mem, h.opened, h.sorted, h.mono, ?_, h.nonneg, h.chgd, h.nodupC, h.pend⟩
  intro w p hp
  by_cases hw : w = n
  · subst hw; rw [hs] at hp; cases hp
  · rw [Function.update_of_ne hw]; exact h.top w p hp

end SideInv
end Clingcon
