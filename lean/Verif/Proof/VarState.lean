import Verif.Spec.VarState
import Mathlib.Tactic.Linarith
import Mathlib.Tactic.SplitIfs
import Mathlib.Data.List.Basic
import Mathlib.Data.List.Lattice

/-! The table of order literals represents a partial function. -/
set_option linter.unusedSimpArgs false

namespace Clingcon
open Spec

/-- Strictly increasing keys. -/
def SortedKeys (m : List (Int × Int)) : Prop := m.Pairwise (fun a b => a.1 < b.1)

theorem mem_indexed {off : Int} {v : List Int} {k l : Int} :
    (k, l) ∈ VarState.indexed off v ↔ off ≤ k ∧ v[(k - off).toNat]? = some l := by
  unfold VarState.indexed
  simp only [List.mem_map, Prod.mk.injEq, Prod.exists]
  constructor
  · rintro ⟨a, b, h, rfl, rfl⟩
    rw [List.mem_zipIdx_iff_getElem?] at h
    refine ⟨by omega, ?_⟩
    rw [← h]; congr 1; simp
  · rintro ⟨h1, h2⟩
    refine ⟨l, (k - off).toNat, ?_, by omega, rfl⟩
    rw [List.mem_zipIdx_iff_getElem?]; exact h2

theorem indexed_sorted (off : Int) (v : List Int) : SortedKeys (VarState.indexed off v) := by
  unfold SortedKeys VarState.indexed
  rw [List.pairwise_map, List.pairwise_iff_getElem]
  intro i j hi hj hij
  simp
  omega

theorem indexed_length (off : Int) (v : List Int) : (VarState.indexed off v).length = v.length := by
  simp [VarState.indexed]

theorem indexed_take {off : Int} {v : List Int} {n : Nat} {k l : Int} :
    (k, l) ∈ (VarState.indexed off v).take n ↔ (k, l) ∈ VarState.indexed off v ∧ k < off + n := by
  rw [mem_indexed]
  unfold VarState.indexed
  rw [← List.map_take, List.mem_map]
  constructor
  · rintro ⟨⟨a, b⟩, h, he⟩
    rw [List.mem_take_iff_getElem] at h
    obtain ⟨i, hi, h⟩ := h
    simp only [Prod.mk.injEq] at he
    obtain ⟨rfl, rfl⟩ := he
    simp at h hi
    obtain ⟨h1, rfl⟩ := h
    refine ⟨⟨by omega, ?_⟩, by omega⟩
    have : (off + (i : Int) - off).toNat = i := by omega
    rw [this, ← h1, List.getElem?_eq_getElem]
  · rintro ⟨⟨h1, h2⟩, h3⟩
    refine ⟨(l, (k - off).toNat), ?_, by simp; omega⟩
    rw [List.mem_take_iff_getElem]
    obtain ⟨hl, h2'⟩ := List.getElem?_eq_some_iff.mp h2
    refine ⟨(k - off).toNat, ?_, ?_⟩
    · simp; omega
    · simp [h2']

theorem indexed_drop {off : Int} {v : List Int} {n : Nat} {k l : Int} :
    (k, l) ∈ (VarState.indexed off v).drop n ↔ (k, l) ∈ VarState.indexed off v ∧ off + n ≤ k := by
  rw [mem_indexed]
  unfold VarState.indexed
  rw [← List.map_drop, List.mem_map]
  constructor
  · rintro ⟨⟨a, b⟩, h, he⟩
    rw [List.mem_drop_iff_getElem] at h
    obtain ⟨i, hi, h⟩ := h
    simp only [Prod.mk.injEq] at he
    obtain ⟨rfl, rfl⟩ := he
    simp at h hi
    obtain ⟨h1, rfl⟩ := h
    refine ⟨⟨by omega, ?_⟩, by omega⟩
    have : (off + ((n + i : Nat) : Int) - off).toNat = n + i := by omega
    rw [this, ← h1, List.getElem?_eq_getElem]
  · rintro ⟨⟨h1, h2⟩, h3⟩
    refine ⟨(l, (k - off).toNat), ?_, by simp; omega⟩
    rw [List.mem_drop_iff_getElem]
    obtain ⟨hl, h2'⟩ := List.getElem?_eq_some_iff.mp h2
    have e : n + ((k - off).toNat - n) = (k - off).toNat := by omega
    refine ⟨(k - off).toNat - n, ?_, ?_⟩
    · simp; omega
    · simp [e, h2']

/-! ### Sorted lists as maps -/

theorem sorted_unique {m : List (Int × Int)} (h : SortedKeys m) {k l l' : Int} (h1 : (k, l) ∈ m) (h2 : (k, l') ∈ m) :
    l = l' := by
  induction m with
  | nil => simp at h1
  | cons p m ih =>
    unfold SortedKeys at h
    rw [List.pairwise_cons] at h
    rcases List.mem_cons.mp h1 with e1 | e1 <;> rcases List.mem_cons.mp h2 with e2 | e2
    · rw [← e1] at e2; exact (Prod.mk.inj e2).2.symm
    · have := h.1 _ e2; rw [← e1] at this; simp at this
    · have := h.1 _ e1; rw [← e2] at this; simp at this
    · exact ih h.2 e1 e2

theorem mapFind_iff {m : List (Int × Int)} (h : SortedKeys m) {k l : Int} : mapFind k m = some l ↔ (k, l) ∈ m := by
  unfold mapFind
  induction m with
  | nil => simp
  | cons p m ih =>
    unfold SortedKeys at h
    rw [List.pairwise_cons] at h
    obtain ⟨x, y⟩ := p
    rw [List.lookup_cons]
    by_cases e : k = x
    · subst e
      simp only [BEq.rfl, List.mem_cons, Prod.mk.injEq, true_and, Option.some.injEq]
      constructor
      · intro h'; exact Or.inl h'.symm
      · rintro (h' | h')
        · exact h'.symm
        · have := h.1 _ h'; simp at this
    · have : (k == x) = false := by simpa using e
      rw [this]
      simp only [List.mem_cons, Prod.mk.injEq, e, false_and, false_or]
      exact ih h.2

theorem mapFind_none {m : List (Int × Int)} (h : SortedKeys m) {k : Int} : mapFind k m = none ↔ ∀ l, (k, l) ∉ m := by
  constructor
  · intro hn l hl
    rw [(mapFind_iff h).mpr hl] at hn; cases hn
  · intro hn
    cases e : mapFind k m with
    | none => rfl
    | some l => exact absurd ((mapFind_iff h).mp e) (hn l)

theorem mapSet_mem {m : List (Int × Int)} (h : SortedKeys m) (k v : Int) {a b : Int} :
    (a, b) ∈ mapSet k v m ↔ if a = k then b = v else (a, b) ∈ m := by
  induction m with
  | nil => by_cases e : a = k <;> simp [mapSet, e]
  | cons p m ih =>
    obtain ⟨x, y⟩ := p
    unfold SortedKeys at h
    rw [List.pairwise_cons] at h
    have hm : ∀ a b, (a, b) ∈ m → x < a := fun a b hb => h.1 _ hb
    have ih := ih h.2
    simp only [mapSet]
    by_cases h1 : k < x
    · rw [if_pos h1]
      by_cases h3 : a = k
      · rw [if_pos h3]
        simp only [List.mem_cons, Prod.mk.injEq]
        constructor
        · rintro (h' | h' | h')
          · exact h'.2
          · omega
          · have := hm _ _ h'; omega
        · intro h'; exact Or.inl ⟨h3, h'⟩
      · rw [if_neg h3]
        simp [h3]
    · rw [if_neg h1]
      by_cases h2 : x < k
      · rw [if_pos h2, List.mem_cons, ih]
        by_cases h3 : a = k
        · rw [if_pos h3, if_pos h3]
          constructor
          · rintro (h' | h')
            · simp at h'; omega
            · exact h'
          · exact Or.inr
        · rw [if_neg h3, if_neg h3, List.mem_cons]
      · rw [if_neg h2]
        have hk : k = x := by omega
        by_cases h3 : a = k
        · rw [if_pos h3]
          simp only [List.mem_cons, Prod.mk.injEq]
          constructor
          · rintro (h' | h')
            · exact h'.2
            · have := hm _ _ h'; omega
          · intro h'; exact Or.inl ⟨h3, h'⟩
        · rw [if_neg h3]
          have : a ≠ x := by omega
          simp [h3, this]

theorem mapSet_sorted {m : List (Int × Int)} (h : SortedKeys m) (k v : Int) : SortedKeys (mapSet k v m) := by
  induction m with
  | nil => simp [mapSet, SortedKeys]
  | cons p m ih =>
    obtain ⟨x, y⟩ := p
    have h' := h
    unfold SortedKeys at h
    rw [List.pairwise_cons] at h
    simp only [mapSet]
    split_ifs with h1 h2
    · unfold SortedKeys
      rw [List.pairwise_cons]
      refine ⟨?_, h'⟩
      intro a ha
      rcases List.mem_cons.mp ha with e | e
      · subst e; exact h1
      · have := h.1 _ e; simp at this ⊢; omega
    · unfold SortedKeys
      rw [List.pairwise_cons]
      refine ⟨?_, ih h.2⟩
      rintro ⟨a, b⟩ ha
      rw [mapSet_mem h.2] at ha
      split_ifs at ha with h3
      · simp; omega
      · exact h.1 _ ha
    · have : k = x := by omega
      subst this
      unfold SortedKeys
      rw [List.pairwise_cons]
      exact ⟨h.1, h.2⟩

theorem mapEmplace_eq {m : List (Int × Int)} (h : SortedKeys m) (k v : Int) :
    mapEmplace k v m = match mapFind k m with | some _ => m | none => mapSet k v m := by
  induction m with
  | nil => simp [mapEmplace, mapFind, mapSet]
  | cons p m ih =>
    obtain ⟨x, y⟩ := p
    have h' := h
    unfold SortedKeys at h
    rw [List.pairwise_cons] at h
    simp only [mapEmplace]
    split_ifs with h1 h2
    · have : mapFind k ((x, y) :: m) = none := by
        rw [mapFind_none h']
        intro l hl
        rcases List.mem_cons.mp hl with e | e
        · simp at e; omega
        · have := h.1 _ e; simp at this; omega
      rw [this]
      simp [mapSet, h1]
    · have hf : mapFind k ((x, y) :: m) = mapFind k m := by
        unfold mapFind
        rw [List.lookup_cons]
        have : (k == x) = false := by simp; omega
        rw [this]
      rw [hf, ih h.2]
      cases mapFind k m with
      | none => simp [mapSet, h1, h2]
      | some l => rfl
    · have : k = x := by omega
      subst this
      have : mapFind k ((k, y) :: m) = some y := by simp [mapFind]
      rw [this]

theorem mapErase_mem {m : List (Int × Int)} {k a b : Int} : (a, b) ∈ mapErase k m ↔ a ≠ k ∧ (a, b) ∈ m := by
  simp [mapErase, and_comm]

theorem mapErase_sorted {m : List (Int × Int)} (h : SortedKeys m) (k : Int) : SortedKeys (mapErase k m) :=
  List.Pairwise.filter _ h

/-! ### Vectors -/

theorem vecGet_ok {off : Int} {v : List Int} {k : Int} (h1 : off ≤ k) (h2 : k < off + v.length) :
    ∃ l, vecGet off v k = .ok l ∧ v[(k - off).toNat]? = some l := by
  unfold vecGet
  rw [if_pos h1]
  have : (k - off).toNat < v.length := by omega
  rw [List.getElem?_eq_getElem this]
  exact ⟨_, rfl, rfl⟩

theorem vecSet_ok {off : Int} {v : List Int} {k : Int} (x : Int) (h1 : off ≤ k) (h2 : k < off + v.length) :
    ∃ v', vecSet off v k x = .ok v' ∧ v'.length = v.length ∧
      ∀ a, off ≤ a → v'[(a - off).toNat]? = if a = k then some x else v[(a - off).toNat]? := by
  unfold vecSet
  have : (k - off).toNat < v.length := by omega
  rw [if_pos ⟨h1, this⟩]
  refine ⟨_, rfl, by simp, ?_⟩
  intro a ha
  rw [List.getElem?_set]
  by_cases e : a = k
  · subst e; simp [this]
  · have : ¬ (k - off).toNat = (a - off).toNat := by omega
    rw [if_neg this, if_neg e]

theorem fillVec_ok {off : Int} {m : List (Int × Int)} : ∀ {v : List Int}, SortedKeys m →
    (∀ p ∈ m, off ≤ p.1 ∧ p.1 < off + v.length) →
    ∃ v', VarState.fillVec off m v = .ok v' ∧ v'.length = v.length ∧
      ∀ a, off ≤ a → v'[(a - off).toNat]? = match mapFind a m with | some l => some l | none => v[(a - off).toNat]? := by
  induction m with
  | nil => intro v _ _; exact ⟨v, rfl, rfl, by simp [mapFind]⟩
  | cons p m ih =>
    intro v h hr
    obtain ⟨x, y⟩ := p
    have h' := h
    unfold SortedKeys at h
    rw [List.pairwise_cons] at h
    have hx := hr (x, y) (by simp)
    obtain ⟨v1, e1, l1, g1⟩ := vecSet_ok y hx.1 hx.2
    obtain ⟨v2, e2, l2, g2⟩ := ih (v := v1) h.2 (by
      intro p hp; rw [l1]; exact hr p (by simp [hp]))
    refine ⟨v2, ?_, by omega, ?_⟩
    · simp [VarState.fillVec, e1, e2, bind, Except.bind]
    · intro a ha
      rw [g2 a ha]
      by_cases e : a = x
      · subst e
        have : mapFind a m = none := by
          rw [mapFind_none h.2]
          intro l hl; have := h.1 _ hl; simp at this
        have h2 : mapFind a ((a, y) :: m) = some y := by simp [mapFind]
        rw [this, h2, g1 a ha]; simp
      · have : mapFind a ((x, y) :: m) = mapFind a m := by
          unfold mapFind
          rw [List.lookup_cons]
          have : (a == x) = false := by simpa using e
          rw [this]
        rw [this]
        cases mapFind a m with
        | none => simp [g1 a ha, e]
        | some l => rfl

/-! ### The representation invariant -/

namespace VarState

/-- Invariant of the table. -/
def WF (vs : VarState) : Prop :=
  match vs.table with
  | .map m => SortedKeys m ∧ ∀ p ∈ m, p.2 ≠ 0
  | .vec off v => off ≤ vs.minBound ∧ vs.maxBound ≤ off + v.length

theorem with_sorted {vs : VarState} (h : vs.WF) : SortedKeys vs.with := by
  unfold WF at h
  unfold VarState.with
  split
  · rename_i m e; rw [e] at h; exact h.1
  · exact List.Pairwise.filter _ (indexed_sorted _ _)

theorem with_nonzero {vs : VarState} (h : vs.WF) {k l : Int} (hm : (k, l) ∈ vs.with) : l ≠ 0 := by
  unfold WF at h
  unfold VarState.with at hm
  split at hm
  · rename_i m e; rw [e] at h; exact h.2 _ hm
  · simpa using (List.mem_filter.mp hm).2

theorem mem_with_vec {vs : VarState} {off : Int} {v : List Int} (e : vs.table = .vec off v) {k l : Int} :
    (k, l) ∈ vs.with ↔ l ≠ 0 ∧ off ≤ k ∧ v[(k - off).toNat]? = some l := by
  unfold VarState.with
  rw [e]
  simp only [List.mem_filter, mem_indexed]
  simp only [bne_iff_ne, ne_eq]
  tauto

theorem mem_with_map {vs : VarState} {m : List (Int × Int)} (e : vs.table = .map m) : vs.with = m := by
  unfold VarState.with; rw [e]

/-- Successful switch to an array. -/
theorem mogrify_spec {vs : VarState} {m : List (Int × Int)} (hs : SortedKeys m) (hn : ∀ p ∈ m, p.2 ≠ 0)
    (hlt : vs.minBound < vs.maxBound) :
    vs.mogrify m = .ok none ∨ ∃ off v, vs.mogrify m = .ok (some (.vec off v)) ∧
      off = vs.minBound ∧ off + v.length = vs.maxBound ∧
      ∀ k l, (l ≠ 0 ∧ off ≤ k ∧ v[(k - off).toNat]? = some l) ↔ (k, l) ∈ m := by
  unfold mogrify
  split_ifs with h1
  · cases m with
    | nil =>
      exfalso
      have : vs.size ≥ 0 := by unfold size; omega
      have : vs.size.tdiv MOGRIFY_FACTOR ≥ 0 := Int.tdiv_nonneg this (by decide)
      simp at h1
      omega
    | cons p m =>
      simp only [List.head?_cons]
      have hne : (p :: m) ≠ [] := by simp
      rw [List.getLast?_eq_getLast_of_ne_nil hne]
      simp only []
      split_ifs with h2
      · right
        have hr : ∀ q ∈ p :: m, vs.minBound ≤ q.1 ∧ q.1 < vs.minBound + (List.replicate vs.size.toNat (0 : Int)).length := by
          intro q hq
          have hsz : vs.minBound + (List.replicate vs.size.toNat (0 : Int)).length = vs.maxBound := by
            simp [size]; omega
          rw [hsz]
          have h' := hs
          unfold SortedKeys at h'
          constructor
          · rw [List.pairwise_cons] at h'
            rcases List.mem_cons.mp hq with e | e
            · subst e; exact h2.1
            · have := h'.1 _ e; omega
          · have : q.1 ≤ ((p :: m).getLast hne).1 := by
              obtain ⟨i, hi, e⟩ := List.mem_iff_getElem.mp hq
              rw [List.getLast_eq_getElem]
              rw [List.pairwise_iff_getElem] at h'
              subst e
              by_cases hl : i = (p :: m).length - 1
              · subst hl; exact le_refl _
              · exact (h' i ((p :: m).length - 1) hi (by simp) (by omega)).le
            omega
        obtain ⟨v', e1, l1, g1⟩ := fillVec_ok hs hr
        have hsz : vs.minBound + v'.length = vs.maxBound := by
          rw [l1]; simp [size]; omega
        refine ⟨vs.minBound, v', by simp [e1, bind, Except.bind, pure, Except.pure], rfl, hsz, ?_⟩
        intro k l
        constructor
        · rintro ⟨a, b, c⟩
          rw [g1 k b] at c
          split at c
          · rename_i l' hl'
            rw [mapFind_iff hs] at hl'
            simp at c; subst c; exact hl'
          · rw [List.getElem?_replicate] at c
            split_ifs at c
            simp at c; omega
        · intro hk
          have := hr _ hk
          refine ⟨hn _ hk, this.1, ?_⟩
          rw [g1 k this.1, (mapFind_iff hs).mpr hk]
      · left; rfl
  · left; rfl

theorem hasLiteral_ok {vs : VarState} (h : vs.WF) {k : Int}
    (hk : (vs.minBound ≤ k ∧ k < vs.maxBound) ∨ ∃ l, (k, l) ∈ vs.with) :
    ∃ b, vs.hasLiteral k = .ok b ∧ (b = true ↔ ∃ l, (k, l) ∈ vs.with) := by
  unfold hasLiteral
  split
  · rename_i m e
    have h' := h
    unfold WF at h'; rw [e] at h'
    refine ⟨_, rfl, ?_⟩
    rw [mem_with_map e, Option.isSome_iff_exists]
    simp only [mapFind_iff h'.1]
  · rename_i off v e
    have h' := h
    unfold WF at h'; rw [e] at h'
    have hr : off ≤ k ∧ k < off + v.length := by
      rcases hk with hk | ⟨l, hl⟩
      · omega
      · rw [mem_with_vec e] at hl
        obtain ⟨hl', _⟩ := List.getElem?_eq_some_iff.mp hl.2.2
        omega
    obtain ⟨l, e1, e2⟩ := vecGet_ok hr.1 hr.2
    rw [e1]
    refine ⟨_, rfl, ?_⟩
    simp only [mem_with_vec e, e2, bne_iff_ne]
    constructor
    · intro hl; exact ⟨l, hl, hr.1, rfl⟩
    · rintro ⟨l', a, _, c⟩; simp at c; subst c; exact a

theorem getLiteral_ok {vs : VarState} (h : vs.WF) {k : Int}
    (hk : (vs.minBound ≤ k ∧ k < vs.maxBound) ∨ ∃ l, (k, l) ∈ vs.with) :
    ∃ o, vs.getLiteral k = .ok o ∧ ∀ l, o = some l ↔ (k, l) ∈ vs.with := by
  unfold getLiteral
  split
  · rename_i m e
    have h' := h
    unfold WF at h'; rw [e] at h'
    refine ⟨_, rfl, ?_⟩
    intro l
    rw [mem_with_map e, mapFind_iff h'.1]
  · rename_i off v e
    have h' := h
    unfold WF at h'; rw [e] at h'
    have hr : off ≤ k ∧ k < off + v.length := by
      rcases hk with hk | ⟨l, hl⟩
      · omega
      · rw [mem_with_vec e] at hl
        obtain ⟨hl', _⟩ := List.getElem?_eq_some_iff.mp hl.2.2
        omega
    obtain ⟨l, e1, e2⟩ := vecGet_ok hr.1 hr.2
    rw [e1]
    refine ⟨_, rfl, ?_⟩
    intro l'
    simp only [mem_with_vec e, e2, Option.some.injEq]
    split_ifs with h0
    · simp only [Option.some.injEq]
      simp at h0
      constructor
      · intro e; subst e; exact ⟨h0, hr.1, rfl⟩
      · rintro ⟨_, _, c⟩; exact c
    · simp at h0
      constructor
      · intro e; cases e
      · rintro ⟨a, _, c⟩; omega

/-- Changing an entry of an array. -/
theorem vecSet_with {vs : VarState} (h : vs.WF) {off : Int} {v : List Int} (e : vs.table = .vec off v) {k : Int} (x : Int)
    (hk : off ≤ k ∧ k < off + v.length) :
    ∃ v', vecSet off v k x = .ok v' ∧ ({ vs with table := .vec off v' } : VarState).WF ∧
      ∀ a b, (a, b) ∈ ({ vs with table := .vec off v' } : VarState).with ↔
        if a = k then b = x ∧ x ≠ 0 else (a, b) ∈ vs.with := by
  obtain ⟨v', e1, l1, g1⟩ := vecSet_ok x hk.1 hk.2
  refine ⟨v', e1, ?_, ?_⟩
  · unfold WF at h ⊢; rw [e] at h
    simp only [l1]
    exact h
  · intro a b
    rw [mem_with_vec rfl, mem_with_vec e]
    by_cases ha : off ≤ a
    · rw [g1 a ha]
      split_ifs with hak
      · subst hak
        simp only [Option.some.injEq]
        constructor
        · rintro ⟨p, _, q⟩; subst q; exact ⟨rfl, p⟩
        · rintro ⟨p, q⟩; subst p; exact ⟨q, ha, rfl⟩
      · rfl
    · split_ifs with hak
      · omega
      · simp [ha]

theorem mapSet_with {vs : VarState} (h : vs.WF) {m : List (Int × Int)} (e : vs.table = .map m) (k x : Int) (hx : x ≠ 0) :
    ({ vs with table := .map (mapSet k x m) } : VarState).WF ∧
      ∀ a b, (a, b) ∈ ({ vs with table := .map (mapSet k x m) } : VarState).with ↔
        if a = k then b = x else (a, b) ∈ vs.with := by
  have h' := h
  unfold WF at h'; rw [e] at h'
  constructor
  · refine ⟨mapSet_sorted h'.1 _ _, ?_⟩
    rintro ⟨a, b⟩ hp
    rw [mapSet_mem h'.1] at hp
    split_ifs at hp
    · simp; omega
    · exact h'.2 _ hp
  · intro a b
    rw [mem_with_map e, mem_with_map rfl, mapSet_mem h'.1]

/-- Effect of a switch on the table. -/
theorem mogrify_with {vs : VarState} (h : vs.WF) {m : List (Int × Int)} (e : vs.table = .map m)
    (hlt : vs.minBound < vs.maxBound) :
    vs.mogrify m = .ok none ∨ ∃ off v, vs.mogrify m = .ok (some (.vec off v)) ∧
      off = vs.minBound ∧ off + v.length = vs.maxBound ∧
      ({ vs with table := .vec off v } : VarState).WF ∧
      ∀ k l, (k, l) ∈ ({ vs with table := .vec off v } : VarState).with ↔ (k, l) ∈ vs.with := by
  have h' := h
  unfold WF at h'; rw [e] at h'
  rcases mogrify_spec h'.1 h'.2 hlt with h1 | ⟨off, v, h1, h2, h3, h4⟩
  · exact Or.inl h1
  · right
    refine ⟨off, v, h1, h2, h3, ?_, ?_⟩
    · show off ≤ vs.minBound ∧ vs.maxBound ≤ off + v.length
      omega
    · intro k l
      rw [mem_with_vec rfl, h4, mem_with_map e]

theorem setLiteral_ok {vs : VarState} (h : vs.WF) {k x : Int} (hx : x ≠ 0)
    (hk : vs.minBound ≤ k ∧ k < vs.maxBound) :
    ∃ vs', vs.setLiteral k x = .ok vs' ∧ vs'.WF ∧ vs' = { vs with table := vs'.table } ∧
      ∀ a b, (a, b) ∈ vs'.with ↔ if a = k then b = x else (a, b) ∈ vs.with := by
  unfold setLiteral
  split
  · rename_i m e
    rcases mogrify_with h e (by omega) with h1 | ⟨off, v, h1, h2, h3, h4, h5⟩
    · rw [h1]
      obtain ⟨a, b⟩ := mapSet_with h e k x hx
      exact ⟨_, rfl, a, rfl, b⟩
    · rw [h1]
      obtain ⟨v', e1, a, b⟩ := vecSet_with h4 rfl x (by omega : off ≤ k ∧ k < off + v.length)
      refine ⟨{ vs with table := .vec off v' }, ?_, a, rfl, ?_⟩
      · simp [bind, Except.bind, e1, pure, Except.pure]
      · intro p q
        rw [b, h5]
        simp [hx]
  · rename_i off v e
    have h' := h
    unfold WF at h'; rw [e] at h'
    obtain ⟨v', e1, a, b⟩ := vecSet_with h e x (by omega : off ≤ k ∧ k < off + v.length)
    refine ⟨{ vs with table := .vec off v' }, ?_, a, rfl, ?_⟩
    · simp [bind, Except.bind, e1, pure, Except.pure]
    · intro p q
      rw [b]
      simp [hx]

theorem unsetLiteral_ok {vs : VarState} (h : vs.WF) {k : Int}
    (hk : (vs.minBound ≤ k ∧ k < vs.maxBound) ∨ ∃ l, (k, l) ∈ vs.with) :
    ∃ vs', vs.unsetLiteral k = .ok vs' ∧ vs'.WF ∧ vs' = { vs with table := vs'.table } ∧
      ∀ a b, (a, b) ∈ vs'.with ↔ a ≠ k ∧ (a, b) ∈ vs.with := by
  unfold unsetLiteral
  split
  · rename_i m e
    have h' := h
    unfold WF at h'; rw [e] at h'
    refine ⟨_, rfl, ⟨mapErase_sorted h'.1 k, ?_⟩, rfl, ?_⟩
    · rintro ⟨a, b⟩ hp
      rw [mapErase_mem] at hp
      exact h'.2 _ hp.2
    · intro a b
      rw [mem_with_map rfl, mem_with_map e, mapErase_mem]
  · rename_i off v e
    have h' := h
    unfold WF at h'; rw [e] at h'
    have hr : off ≤ k ∧ k < off + v.length := by
      rcases hk with hk | ⟨l, hl⟩
      · omega
      · rw [mem_with_vec e] at hl
        obtain ⟨hl', _⟩ := List.getElem?_eq_some_iff.mp hl.2.2
        omega
    obtain ⟨v', e1, a, b⟩ := vecSet_with h e 0 hr
    refine ⟨{ vs with table := .vec off v' }, ?_, a, rfl, ?_⟩
    · simp [bind, Except.bind, e1, pure, Except.pure]
    · intro p q
      rw [b]
      split_ifs with hp <;> simp [hp]

/-- `get_or_add_literal` followed by writing the literal if there was none. -/
theorem refer_ok {vs : VarState} (h : vs.WF) {k x : Int} (hx : x ≠ 0)
    (hk : vs.minBound ≤ k ∧ k < vs.maxBound) :
    ∃ o vs1, vs.getOrAddLiteral k = .ok (o, vs1) ∧ vs1 = { vs with table := vs1.table } ∧
      ((o ≠ 0 ∧ vs1.WF ∧ (k, o) ∈ vs.with ∧ ∀ a b, (a, b) ∈ vs1.with ↔ (a, b) ∈ vs.with) ∨
       (o = 0 ∧ (∀ l, (k, l) ∉ vs.with) ∧ ∃ vs2, vs1.writeLiteral k x = .ok vs2 ∧ vs2.WF ∧
          vs2 = { vs with table := vs2.table } ∧
          ∀ a b, (a, b) ∈ vs2.with ↔ if a = k then b = x else (a, b) ∈ vs.with)) := by
  have vecCase : ∀ (vs' : VarState) (off : Int) (v : List Int), vs'.WF → vs'.table = .vec off v →
      off ≤ k ∧ k < off + v.length → vs' = { vs with table := .vec off v } →
      (∀ a b, (a, b) ∈ vs'.with ↔ (a, b) ∈ vs.with) →
      ∃ o, vecGet off v k = .ok o ∧ 
      ((o ≠ 0 ∧ vs'.WF ∧ (k, o) ∈ vs.with ∧ ∀ a b, (a, b) ∈ vs'.with ↔ (a, b) ∈ vs.with) ∨
       (o = 0 ∧ (∀ l, (k, l) ∉ vs.with) ∧ ∃ vs2, vs'.writeLiteral k x = .ok vs2 ∧ vs2.WF ∧
          vs2 = { vs with table := vs2.table } ∧
          ∀ a b, (a, b) ∈ vs2.with ↔ if a = k then b = x else (a, b) ∈ vs.with)) := by
    intro vs' off v hw e hr he hm
    obtain ⟨l, e1, e2⟩ := vecGet_ok hr.1 hr.2
    refine ⟨l, e1, ?_⟩
    by_cases hl : l = 0
    · right
      refine ⟨hl, ?_, ?_⟩
      · intro l' hl'
        rw [← hm, mem_with_vec e, e2] at hl'
        obtain ⟨a, _, c⟩ := hl'
        simp at c; omega
      · obtain ⟨v', e3, a, b⟩ := vecSet_with hw e x hr
        refine ⟨{ vs' with table := .vec off v' }, ?_, a, ?_, ?_⟩
        · unfold writeLiteral
          rw [e]; simp [bind, Except.bind, e3, pure, Except.pure]
        · rw [he]
        · intro p q
          rw [b, hm]
          simp [hx]
    · left
      refine ⟨hl, hw, ?_, hm⟩
      rw [← hm, mem_with_vec e]
      exact ⟨hl, hr.1, e2⟩
  have h' := h
  cases e : vs.table with
  | map m =>
    unfold WF at h'; rw [e] at h'
    rcases mogrify_with h e (by omega) with h1 | ⟨off, v, h1, h2, h3, h4, h5⟩
    · have hc : vs.getOrAddLiteral k = .ok ((mapFind k (mapEmplace k 0 m)).getD 0, { vs with table := .map (mapEmplace k 0 m) }) := by
        unfold getOrAddLiteral
        rw [e]
        simp [h1, bind, Except.bind, pure, Except.pure]
      rw [hc]
      refine ⟨_, _, rfl, rfl, ?_⟩
      rw [mapEmplace_eq h'.1]
      cases hf : mapFind k m with
      | none =>
        right
        simp only []
        have hs := mapSet_sorted h'.1 k 0
        have hmm : mapFind k (mapSet k 0 m) = some 0 := by
          rw [mapFind_iff hs, mapSet_mem h'.1]; simp
        rw [hmm]
        refine ⟨rfl, ?_, ?_⟩
        · rw [mapFind_none h'.1] at hf
          rw [mem_with_map e]; exact hf
        · refine ⟨{ vs with table := .map (mapSet k x (mapSet k 0 m)) }, rfl, ⟨mapSet_sorted hs _ _, ?_⟩, rfl, ?_⟩
          · rintro ⟨a, b⟩ hp
            rw [mapSet_mem hs] at hp
            split_ifs at hp with hak
            · simp; omega
            · rw [mapSet_mem h'.1, if_neg hak] at hp
              exact h'.2 _ hp
          · intro a b
            rw [mem_with_map rfl, mapSet_mem hs, mem_with_map e]
            split_ifs with hak
            · rfl
            · rw [mapSet_mem h'.1, if_neg hak]
      | some l =>
        left
        simp only []
        rw [hf]
        have hl := (mapFind_iff h'.1).mp hf
        refine ⟨h'.2 _ hl, h', ?_, ?_⟩
        · rw [mem_with_map e]; exact hl
        · intro a b
          rw [mem_with_map rfl, mem_with_map e]
    · obtain ⟨o, ho, hrest⟩ := vecCase { vs with table := .vec off v } off v h4 rfl (by omega) rfl h5
      refine ⟨o, { vs with table := .vec off v }, ?_, rfl, hrest⟩
      unfold getOrAddLiteral
      rw [e]
      simp [h1, bind, Except.bind, pure, Except.pure, ho]
  | vec off v =>
    unfold WF at h'; rw [e] at h'
    obtain ⟨o, ho, hrest⟩ := vecCase vs off v h e (by omega) (by rw [← e]) (fun _ _ => Iff.rfl)
    refine ⟨o, vs, ?_, rfl, hrest⟩
    unfold getOrAddLiteral
    rw [e]
    simp [bind, Except.bind, pure, Except.pure, ho]

/-! ### Traversals -/

theorem takeWhile_lt {m : List (Int × Int)} (h : SortedKeys m) (p : Int → Bool) (hp : ∀ a b, a < b → p b = true → p a = true) :
    m.takeWhile (fun q => p q.1) = m.filter (fun q => p q.1) := by
  induction m with
  | nil => rfl
  | cons x m ih =>
    unfold SortedKeys at h
    rw [List.pairwise_cons] at h
    rw [List.takeWhile_cons, List.filter_cons]
    split_ifs with h1
    · rw [ih h.2]
    · symm
      rw [List.filter_eq_nil_iff]
      intro a ha hpa
      exact h1 (hp _ _ (h.1 a ha) hpa)

theorem dropWhile_lt {m : List (Int × Int)} (h : SortedKeys m) (p : Int → Bool) (hp : ∀ a b, a < b → p b = true → p a = true) :
    m.dropWhile (fun q => p q.1) = m.filter (fun q => !p q.1) := by
  induction m with
  | nil => rfl
  | cons x m ih =>
    unfold SortedKeys at h
    rw [List.pairwise_cons] at h
    rw [List.dropWhile_cons, List.filter_cons]
    by_cases h1 : p x.1 = true
    · simp [h1, ih h.2]
    · simp only [h1, Bool.not_false, if_true]
      simp
      symm
      rw [List.filter_eq_self]
      intro a ha
      by_contra hpa
      simp at hpa
      exact h1 (hp _ _ (h.1 a ha) hpa)

theorem lists_rev {m : List (Int × Int)} (h : SortedKeys m) : m.reverse.Pairwise (fun a b => a.1 > b.1) := by
  rw [List.pairwise_reverse]; exact h

theorem withLt_spec {vs : VarState} (h : vs.WF) (x : Int) :
    (vs.withLt x).Pairwise (fun a b => a.1 > b.1) ∧ ∀ k l, (k, l) ∈ vs.withLt x ↔ k < x ∧ (k, l) ∈ vs.with := by
  unfold withLt
  split
  · rename_i m e
    have h' := h
    unfold WF at h'; rw [e] at h'
    rw [mem_with_map e, takeWhile_lt h'.1 (fun a => decide (a < x)) (by simp; omega)]
    refine ⟨lists_rev (List.Pairwise.filter _ h'.1), ?_⟩
    intro k l
    simp [and_comm]
  · rename_i off v e
    refine ⟨?_, ?_⟩
    · exact List.Pairwise.filter _ (lists_rev (List.Pairwise.take (indexed_sorted off v)))
    · intro k l
      rw [List.mem_filter, List.mem_reverse, indexed_take, mem_with_vec e, mem_indexed]
      simp only [bne_iff_ne]
      constructor
      · rintro ⟨⟨⟨a, b⟩, c⟩, d⟩; exact ⟨by omega, d, a, b⟩
      · rintro ⟨a, b, c, d⟩; exact ⟨⟨⟨c, d⟩, by omega⟩, b⟩

theorem withLe_spec {vs : VarState} (h : vs.WF) (x : Int) :
    (vs.withLe x).Pairwise (fun a b => a.1 > b.1) ∧ ∀ k l, (k, l) ∈ vs.withLe x ↔ k ≤ x ∧ (k, l) ∈ vs.with := by
  unfold withLe
  split
  · rename_i m e
    have h' := h
    unfold WF at h'; rw [e] at h'
    rw [mem_with_map e, takeWhile_lt h'.1 (fun a => decide (a ≤ x)) (by simp; omega)]
    refine ⟨lists_rev (List.Pairwise.filter _ h'.1), ?_⟩
    intro k l
    simp [and_comm]
  · rename_i off v e
    refine ⟨?_, ?_⟩
    · exact List.Pairwise.filter _ (lists_rev (List.Pairwise.take (indexed_sorted off v)))
    · intro k l
      rw [List.mem_filter, List.mem_reverse, indexed_take, mem_with_vec e, mem_indexed]
      simp only [bne_iff_ne]
      constructor
      · rintro ⟨⟨⟨a, b⟩, c⟩, d⟩; exact ⟨by omega, d, a, b⟩
      · rintro ⟨a, b, c, d⟩; exact ⟨⟨⟨c, d⟩, by omega⟩, b⟩

theorem withGt_spec {vs : VarState} (h : vs.WF) (x : Int) :
    (vs.withGt x).Pairwise (fun a b => a.1 < b.1) ∧ ∀ k l, (k, l) ∈ vs.withGt x ↔ x < k ∧ (k, l) ∈ vs.with := by
  unfold withGt
  split
  · rename_i m e
    have h' := h
    unfold WF at h'; rw [e] at h'
    rw [mem_with_map e, dropWhile_lt h'.1 (fun a => decide (a ≤ x)) (by simp; omega)]
    refine ⟨List.Pairwise.filter _ h'.1, ?_⟩
    intro k l
    simp [and_comm]
  · rename_i off v e
    refine ⟨?_, ?_⟩
    · exact List.Pairwise.filter _ (List.Pairwise.drop (indexed_sorted off v))
    · intro k l
      rw [List.mem_filter, indexed_drop, mem_with_vec e, mem_indexed]
      simp only [bne_iff_ne]
      constructor
      · rintro ⟨⟨⟨a, b⟩, c⟩, d⟩; exact ⟨by omega, d, a, b⟩
      · rintro ⟨a, b, c, d⟩; exact ⟨⟨⟨c, d⟩, by omega⟩, b⟩

theorem withGe_spec {vs : VarState} (h : vs.WF) (x : Int) :
    (vs.withGe x).Pairwise (fun a b => a.1 < b.1) ∧ ∀ k l, (k, l) ∈ vs.withGe x ↔ x ≤ k ∧ (k, l) ∈ vs.with := by
  unfold withGe
  split
  · rename_i m e
    have h' := h
    unfold WF at h'; rw [e] at h'
    rw [mem_with_map e, dropWhile_lt h'.1 (fun a => decide (a < x)) (by simp; omega)]
    refine ⟨List.Pairwise.filter _ h'.1, ?_⟩
    intro k l
    simp [and_comm]
  · rename_i off v e
    refine ⟨?_, ?_⟩
    · exact List.Pairwise.filter _ (List.Pairwise.drop (indexed_sorted off v))
    · intro k l
      rw [List.mem_filter, indexed_drop, mem_with_vec e, mem_indexed]
      simp only [bne_iff_ne]
      constructor
      · rintro ⟨⟨⟨a, b⟩, c⟩, d⟩; exact ⟨by omega, d, a, b⟩
      · rintro ⟨a, b, c, d⟩; exact ⟨⟨⟨c, d⟩, by omega⟩, b⟩

theorem litLt_spec {vs : VarState} (h : vs.WF) (x : Int) :
    (vs.litLt x = 0 ∧ ∀ k l, (k, l) ∈ vs.with → ¬ k < x) ∨
    (vs.litLt x ≠ 0 ∧ ∃ k, k < x ∧ (k, vs.litLt x) ∈ vs.with ∧ ∀ k' l, (k', l) ∈ vs.with → k < k' → ¬ k' < x) := by
  obtain ⟨h1, h2⟩ := withLt_spec h x
  unfold litLt
  cases e : vs.withLt x with
  | nil =>
    left
    refine ⟨rfl, ?_⟩
    intro k l hk hx
    have := (h2 k l).mpr ⟨hx, hk⟩
    rw [e] at this; simp at this
  | cons p t =>
    obtain ⟨k, l⟩ := p
    have hm := (h2 k l).mp (by rw [e]; simp)
    right
    simp only [List.head?_cons]
    refine ⟨with_nonzero h hm.2, k, hm.1, hm.2, ?_⟩
    intro k' l' hk' hlt hx
    have := (h2 k' l').mpr ⟨hx, hk'⟩
    rw [e] at this h1
    rw [List.pairwise_cons] at h1
    rcases List.mem_cons.mp this with e1 | e1
    · simp at e1; omega
    · have := h1.1 _ e1; simp at this; omega

theorem litGt_spec {vs : VarState} (h : vs.WF) (x : Int) :
    (vs.litGt x = 0 ∧ ∀ k l, (k, l) ∈ vs.with → ¬ x < k) ∨
    (vs.litGt x ≠ 0 ∧ ∃ k, x < k ∧ (k, vs.litGt x) ∈ vs.with ∧ ∀ k' l, (k', l) ∈ vs.with → k' < k → ¬ x < k') := by
  obtain ⟨h1, h2⟩ := withGt_spec h x
  unfold litGt
  cases e : vs.withGt x with
  | nil =>
    left
    refine ⟨rfl, ?_⟩
    intro k l hk hx
    have := (h2 k l).mpr ⟨hx, hk⟩
    rw [e] at this; simp at this
  | cons p t =>
    obtain ⟨k, l⟩ := p
    have hm := (h2 k l).mp (by rw [e]; simp)
    right
    simp only [List.head?_cons]
    refine ⟨with_nonzero h hm.2, k, hm.1, hm.2, ?_⟩
    intro k' l' hk' hlt hx
    have := (h2 k' l').mpr ⟨hx, hk'⟩
    rw [e] at this h1
    rw [List.pairwise_cons] at h1
    rcases List.mem_cons.mp this with e1 | e1
    · simp at e1; omega
    · have := h1.1 _ e1; simp at this; omega

/-! ### Bounds -/

theorem minBound_mono {vs : VarState} {x : Int} (h : vs.lowerStack = [] → vs.lower ≤ x) :
    vs.minBound ≤ ({ vs with lower := x } : VarState).minBound := by
  unfold minBound
  cases e : vs.lowerStack with
  | nil => simpa [e] using h e
  | cons p t =>
    simp only [e]
    cases e2 : (p :: t).getLast? with
    | none => simp at e2
    | some q => exact le_refl _

theorem maxBound_mono {vs : VarState} {x : Int} (h : vs.upperStack = [] → x ≤ vs.upper) :
    ({ vs with upper := x } : VarState).maxBound ≤ vs.maxBound := by
  unfold maxBound
  cases e : vs.upperStack with
  | nil => simpa [e] using h e
  | cons p t =>
    simp only [e]
    cases e2 : (p :: t).getLast? with
    | none => simp at e2
    | some q => exact le_refl _

theorem pushLower_min (vs : VarState) (l : Nat) : (vs.pushLower l).minBound = vs.minBound := by
  unfold pushLower minBound
  cases e : vs.lowerStack with
  | nil => simp
  | cons p t => simp [List.getLast?_cons_cons]

theorem pushUpper_max (vs : VarState) (l : Nat) : (vs.pushUpper l).maxBound = vs.maxBound := by
  unfold pushUpper maxBound
  cases e : vs.upperStack with
  | nil => simp
  | cons p t => simp [List.getLast?_cons_cons]

theorem popLower_ok {vs : VarState} (h : vs.lowerStack ≠ []) :
    ∃ vs', vs.popLower = .ok vs' ∧ vs'.minBound = vs.minBound ∧ vs'.maxBound = vs.maxBound ∧ vs'.table = vs.table := by
  unfold popLower
  cases e : vs.lowerStack with
  | nil => exact absurd e h
  | cons p t =>
    refine ⟨_, rfl, ?_, rfl, rfl⟩
    unfold minBound
    simp only [e]
    cases t with
    | nil => simp
    | cons q t =>
      rw [List.getLast?_cons_cons]
      cases e3 : (q :: t).getLast? with
      | none => simp at e3
      | some r => rfl

theorem popUpper_ok {vs : VarState} (h : vs.upperStack ≠ []) :
    ∃ vs', vs.popUpper = .ok vs' ∧ vs'.minBound = vs.minBound ∧ vs'.maxBound = vs.maxBound ∧ vs'.table = vs.table := by
  unfold popUpper
  cases e : vs.upperStack with
  | nil => exact absurd e h
  | cons p t =>
    refine ⟨_, rfl, rfl, ?_, rfl⟩
    unfold maxBound
    simp only [e]
    cases t with
    | nil => simp
    | cons q t =>
      rw [List.getLast?_cons_cons]
      cases e3 : (q :: t).getLast? with
      | none => simp at e3
      | some r => rfl

/-- The invariant and contents only depend on the table and are kept if the lowest bounds get tighter. -/
theorem wf_bounds {vs vs' : VarState} (h : vs.WF) (ht : vs'.table = vs.table) (h1 : vs.minBound ≤ vs'.minBound)
    (h2 : vs'.maxBound ≤ vs.maxBound) : vs'.WF := by
  unfold WF at h ⊢
  rw [ht]
  split
  · rename_i m e; rw [e] at h; exact h
  · rename_i off v e; rw [e] at h; simp at h; constructor <;> omega

theorem with_congr {vs vs' : VarState} (ht : vs'.table = vs.table) : vs'.with = vs.with := by
  unfold VarState.with; rw [ht]

end VarState

/-! ### Refinement -/

/-- The table represents the partial function `f`. -/
def Rep (vs : VarState) (f : Int → Option Int) : Prop := vs.WF ∧ ∀ k l, (k, l) ∈ vs.with ↔ f k = some l

theorem tab_step {vs : VarState} {f : Int → Option Int} (h : Rep vs f) (op : TabOp) (hp : TabPre vs f op) :
    ∃ out vs', tabRun vs op = .ok (out, vs') ∧ TabAnswer f op out ∧ Rep vs' (tabNext f op) := by
  obtain ⟨hw, hm⟩ := h
  have hsome : ∀ v, (f v).isSome → ∃ l, (v, l) ∈ vs.with := by
    intro v hv
    obtain ⟨l, hl⟩ := Option.isSome_iff_exists.mp hv
    exact ⟨l, (hm _ _).mpr hl⟩
  have bnd : ∀ vs' : VarState, vs'.table = vs.table → vs.minBound ≤ vs'.minBound → vs'.maxBound ≤ vs.maxBound → Rep vs' f := by
    intro vs' ht h1 h2
    refine ⟨VarState.wf_bounds hw ht h1 h2, ?_⟩
    rw [VarState.with_congr ht]; exact hm
  have lst : ∀ {p : Int → Prop} {r : Int → Int → Prop} {o : List (Int × Int)},
      (o.Pairwise (fun a b => r a.1 b.1) ∧ ∀ k l, (k, l) ∈ o ↔ p k ∧ (k, l) ∈ vs.with) → Lists f p r o := by
    intro p r o ho
    refine ⟨ho.1, ?_⟩
    intro k l
    rw [ho.2, hm]
  cases op with
  | refer v l =>
    obtain ⟨hl, hr⟩ := hp
    obtain ⟨o, vs1, e1, e2, hc⟩ := VarState.refer_ok hw hl hr
    rcases hc with ⟨h0, hw1, hmem, heq⟩ | ⟨h0, hn, vs2, e3, hw2, _, heq⟩
    · refine ⟨.lit o, vs1, ?_, ?_, hw1, ?_⟩
      · simp [tabRun, e1, bind, Except.bind, pure, Except.pure, h0]
      · simp [TabAnswer, (hm _ _).mp hmem]
      · intro a b
        rw [heq, hm]
        simp [tabNext, (hm _ _).mp hmem]
    · have hfn : f v = none := by
        cases e : f v with
        | none => rfl
        | some l' => exact absurd ((hm _ _).mpr e) (hn l')
      refine ⟨.lit l, vs2, ?_, ?_, hw2, ?_⟩
      · simp [tabRun, e1, bind, Except.bind, pure, Except.pure, h0, e3]
      · simp [TabAnswer, hfn]
      · intro a b
        rw [heq]
        by_cases h1 : a = v
        · simp [tabNext, hfn, Function.update_apply, h1, eq_comm]
        · simp [tabNext, hfn, Function.update_apply, h1, hm]
  | set v l =>
    obtain ⟨vs', e1, hw', _, heq⟩ := VarState.setLiteral_ok hw hp.1 hp.2
    refine ⟨.unit, vs', by simp [tabRun, e1, bind, Except.bind, pure, Except.pure], trivial, hw', ?_⟩
    intro a b
    rw [heq]
    simp only [tabNext, Function.update_apply]
    split_ifs
    · simp [eq_comm]
    · rw [hm]
  | unset v =>
    obtain ⟨vs', e1, hw', _, heq⟩ := VarState.unsetLiteral_ok hw (hp.imp id (hsome v))
    refine ⟨.unit, vs', by simp [tabRun, e1, bind, Except.bind, pure, Except.pure], trivial, hw', ?_⟩
    intro a b
    rw [heq, hm]
    simp only [tabNext, Function.update_apply]
    split_ifs with h1
    · simp [h1]
    · simp [h1]
  | has v =>
    obtain ⟨b, e1, hb⟩ := VarState.hasLiteral_ok hw (hp.imp id (hsome v))
    refine ⟨.bool b, vs, by simp [tabRun, e1, bind, Except.bind, pure, Except.pure], ?_, hw, hm⟩
    simp only [hm] at hb
    simp only [TabAnswer]
    rw [Bool.eq_iff_iff, hb, Option.isSome_iff_exists]
  | get v =>
    obtain ⟨o, e1, hb⟩ := VarState.getLiteral_ok hw (hp.imp id (hsome v))
    refine ⟨.opt o, vs, by simp [tabRun, e1, bind, Except.bind, pure, Except.pure], ?_, hw, hm⟩
    simp only [TabAnswer]
    apply Option.ext
    intro l
    rw [hb, hm]
  | all =>
    refine ⟨.seq _, vs, rfl, lst ⟨VarState.with_sorted hw, ?_⟩, hw, hm⟩
    simp
  | lt v => exact ⟨.seq _, vs, rfl, lst (VarState.withLt_spec hw v), hw, hm⟩
  | le v => exact ⟨.seq _, vs, rfl, lst (VarState.withLe_spec hw v), hw, hm⟩
  | gt v => exact ⟨.seq _, vs, rfl, lst (VarState.withGt_spec hw v), hw, hm⟩
  | ge v => exact ⟨.seq _, vs, rfl, lst (VarState.withGe_spec hw v), hw, hm⟩
  | prev v =>
    refine ⟨.lit _, vs, rfl, ?_, hw, hm⟩
    simp only [TabAnswer, VarState.litPrev]
    have hnone : ∀ k, (∀ l, (k, l) ∉ vs.with) → f k = none := by
      intro k hk
      cases e : f k with
      | none => rfl
      | some l' => exact absurd ((hm _ _).mpr e) (hk l')
    rcases VarState.litLt_spec hw v with ⟨h0, h1⟩ | ⟨h0, k, h1, h2, h3⟩
    · right
      rw [if_neg (by simp [h0])]
      exact ⟨rfl, fun k hk => hnone k (fun l hl => h1 k l hl hk)⟩
    · left
      rw [if_pos h0]
      exact ⟨k, h1, (hm _ _).mp h2, fun k' ha hb => hnone k' (fun l hl => h3 k' l hl ha hb)⟩
  | succ v =>
    refine ⟨.lit _, vs, rfl, ?_, hw, hm⟩
    simp only [TabAnswer, VarState.litSucc]
    have hnone : ∀ k, (∀ l, (k, l) ∉ vs.with) → f k = none := by
      intro k hk
      cases e : f k with
      | none => rfl
      | some l' => exact absurd ((hm _ _).mpr e) (hk l')
    rcases VarState.litGt_spec hw v with ⟨h0, h1⟩ | ⟨h0, k, h1, h2, h3⟩
    · right
      rw [if_neg (by simp [h0])]
      exact ⟨rfl, fun k hk => hnone k (fun l hl => h1 k l hl hk)⟩
    · left
      rw [if_pos h0]
      exact ⟨k, h1, (hm _ _).mp h2, fun k' ha hb => hnone k' (fun l hl => h3 k' l hl hb ha)⟩
  | setLower v => exact ⟨.unit, _, rfl, trivial, bnd _ rfl (VarState.minBound_mono hp) (le_refl _)⟩
  | setUpper v => exact ⟨.unit, _, rfl, trivial, bnd _ rfl (le_refl _) (VarState.maxBound_mono hp)⟩
  | pushLower l => exact ⟨.unit, _, rfl, trivial, bnd _ rfl (VarState.pushLower_min _ _).ge (le_refl _)⟩
  | pushUpper l => exact ⟨.unit, _, rfl, trivial, bnd _ rfl (le_refl _) (VarState.pushUpper_max _ _).le⟩
  | popLower =>
    obtain ⟨vs', e1, h1, h2, h3⟩ := VarState.popLower_ok hp
    exact ⟨.unit, vs', by simp [tabRun, e1, bind, Except.bind, pure, Except.pure], trivial, bnd _ h3 h1.ge h2.le⟩
  | popUpper =>
    obtain ⟨vs', e1, h1, h2, h3⟩ := VarState.popUpper_ok hp
    exact ⟨.unit, vs', by simp [tabRun, e1, bind, Except.bind, pure, Except.pure], trivial, bnd _ h3 h1.ge h2.le⟩

theorem tab_run (ops : List TabOp) : ∀ {vs : VarState} {f : Int → Option Int}, Rep vs f → TabRunOK vs f ops := by
  induction ops with
  | nil => intro vs f _; trivial
  | cons op ops ih =>
    intro vs f h hp
    obtain ⟨out, vs', h1, h2, h3⟩ := tab_step h op hp
    exact ⟨out, vs', h1, h2, ih h3⟩

end Clingcon
