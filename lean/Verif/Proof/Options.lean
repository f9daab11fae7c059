import Verif.Spec.Options
import Mathlib.Tactic.SplitIfs
import Mathlib.Tactic.Tauto
import Mathlib.Data.List.Induction

namespace Clingcon
open Spec

namespace Conf

theorem grow_get (d : SConf) : ∀ (n : Nat) (cs : List SConf) (t : Nat), (grow d n cs).getD t d = cs.getD t d
  | 0, [], t => by cases t <;> simp [grow]
  | 0, c :: cs, t => by simp [grow]
  | n + 1, [], t => by
    cases t with
    | zero => simp [grow]
    | succ t => simp only [grow]; have := grow_get d n [] t; simpa using this
  | n + 1, c :: cs, t => by
    cases t with
    | zero => simp [grow]
    | succ t => simp only [grow]; have := grow_get d n cs t; simpa using this

theorem grow_len (d : SConf) : ∀ (n : Nat) (cs : List SConf), n < (grow d n cs).length
  | 0, [] => by simp [grow]
  | 0, c :: cs => by simp [grow]
  | n + 1, [] => by have := grow_len d n []; simp only [grow, List.length_cons]; omega
  | n + 1, c :: cs => by have := grow_len d n cs; simp only [grow, List.length_cons]; omega

theorem solverConfig_eq (c : Conf) (t : Nat) : c.solverConfig t = c.configs.getD t c.default := by
  unfold solverConfig touch
  exact grow_get _ _ _ _

theorem setting_set (s : SConf) (g g' : Target) (v : Int) : setting (s.setValue g' v) g = if g' = g then meant g v else setting s g := by
  cases g' <;> cases g <;> simp only [SConf.setValue, setting, meant, reduceCtorEq, if_true, if_false, bne_iff_ne, ne_eq] <;> split_ifs <;> simp_all

theorem setting_setValue (c : Conf) (g g' : Target) (v : Int) (th : Option Nat) (t : Nat) :
    setting ((c.setValue g' v th).solverConfig t) g =
      if g' = g ∧ (th = none ∨ th = some t) then meant g v else setting (c.solverConfig t) g := by
  rw [solverConfig_eq, solverConfig_eq]
  cases th with
  | none =>
    simp only [setValue, true_or, and_true]
    rw [show (c.configs.map (·.setValue g' v)).getD t (c.default.setValue g' v) = (c.configs.getD t c.default).setValue g' v by
      simp only [List.getD_eq_getElem?_getD, List.getElem?_map]
      cases c.configs[t]? <;> rfl]
    rw [setting_set]
  | some n =>
    simp only [setValue, touch, reduceCtorEq, false_or, Option.some.injEq]
    have hl := grow_len c.default n c.configs
    by_cases h : n = t
    · subst h
      have e : ((grow c.default n c.configs).modify n (·.setValue g' v)).getD n c.default = (c.configs.getD n c.default).setValue g' v := by
        rw [← grow_get c.default n c.configs n]
        simp only [List.getD_eq_getElem?_getD, List.getElem?_modify, if_pos, List.getElem?_eq_getElem hl]
        rfl
      rw [e, setting_set]
      simp
    · have e : ((grow c.default n c.configs).modify n (·.setValue g' v)).getD t c.default = c.configs.getD t c.default := by
        rw [← grow_get c.default n c.configs t]
        simp only [List.getD_eq_getElem?_getD, List.getElem?_modify, if_neg h]
        simp
      rw [e, if_neg (by tauto)]

/-- Settings after a sequence of changes. -/
theorem setting_fold (g : Target) (t : Nat) : ∀ (h : List ((Target × Option Nat) × Int)) (c : Conf),
    setting ((h.foldl (fun c e => c.setValue e.1.1 e.2 e.1.2) c).solverConfig t) g =
      match lastFor g t h with | some v => meant g v | none => setting (c.solverConfig t) g := by
  intro h
  induction h using List.reverseRecOn with
  | nil => intro c; simp [lastFor]
  | append_singleton h e ih =>
    intro c
    rw [List.foldl_append, List.foldl_cons, List.foldl_nil, setting_setValue, ih]
    simp only [lastFor, List.reverse_append, List.reverse_cons, List.reverse_nil, List.nil_append, List.singleton_append,
      List.find?_cons]
    by_cases hm : e.1.1 = g ∧ (e.1.2 = none ∨ e.1.2 = some t)
    · rw [if_pos hm, decide_eq_true hm]; rfl
    · rw [if_neg hm, decide_eq_false hm]

end Conf

theorem fold_filter {α β : Type} (f : α → β → α) (p : β → Bool) : ∀ (l : List β) (a : α),
    l.foldl (fun a e => if p e then f a e else a) a = (l.filter p).foldl f a
  | [], a => rfl
  | e :: l, a => by
    rw [List.foldl_cons, List.filter_cons]
    by_cases h : p e = true
    · rw [if_pos h, if_pos h, List.foldl_cons]; exact fold_filter f p l _
    · rw [if_neg h, if_neg h]; exact fold_filter f p l _

theorem lastFor_append (g : Target) (t : Nat) (a b : List ((Target × Option Nat) × Int)) :
    lastFor g t (a ++ b) = (lastFor g t b).or (lastFor g t a) := by
  simp only [lastFor, List.reverse_append, List.find?_append]
  cases b.reverse.find? _ <;> simp

/-- Keys as pairs of numbers. -/
def keyNum (a : Target × Option Nat) : Nat × Nat := (a.1.idx, match a.2 with | none => 0 | some n => n + 1)

theorem keyLt_iff (a b : Target × Option Nat) :
    keyLt a b = true ↔ (keyNum a).1 < (keyNum b).1 ∨ ((keyNum a).1 = (keyNum b).1 ∧ (keyNum a).2 < (keyNum b).2) := by
  obtain ⟨a1, a2⟩ := a
  obtain ⟨b1, b2⟩ := b
  cases a2 <;> cases b2 <;> simp [keyLt, keyNum]

theorem keyNum_inj {a b : Target × Option Nat} (h : keyNum a = keyNum b) : a = b := by
  obtain ⟨a1, a2⟩ := a
  obtain ⟨b1, b2⟩ := b
  simp only [keyNum, Prod.mk.injEq] at h
  have h1 : a1 = b1 := by revert h; cases a1 <;> cases b1 <;> simp [Target.idx]
  subst h1
  cases a2 <;> cases b2 <;> simp_all

/-- The map is sorted by its keys. -/
def SortedD (d : Deferred) : Prop := d.Pairwise (fun a b => keyLt a.1 b.1 = true)

theorem emplace_spec (k : Target × Option Nat) (v : Int) : ∀ (d : Deferred), SortedD d →
    SortedD (d.emplace k v).2 ∧ ((d.emplace k v).1 = true ↔ k ∉ d.map (·.1)) ∧
      ((d.emplace k v).1 = true → ∀ e, e ∈ (d.emplace k v).2 ↔ e = (k, v) ∨ e ∈ d) ∧ (∀ e ∈ (d.emplace k v).2, e = (k, v) ∨ e ∈ d)
  | [], _ => by simp [Deferred.emplace, SortedD]
  | e :: es, hs => by
    obtain ⟨hh, ht⟩ := List.pairwise_cons.mp hs
    unfold Deferred.emplace
    by_cases h1 : e.1 = k
    · rw [if_pos h1]
      refine ⟨hs, ?_, by simp, fun e' h => Or.inr h⟩
      simp only [Bool.false_eq_true, false_iff, not_not, List.map_cons, List.mem_cons]
      exact Or.inl h1.symm
    · rw [if_neg h1]
      by_cases h2 : keyLt k e.1 = true
      · rw [if_pos h2]
        have hk : ∀ e' ∈ e :: es, keyLt k e'.1 = true := by
          intro e' he'
          rcases List.mem_cons.mp he' with rfl | he'
          · exact h2
          · have := hh e' he'
            rw [keyLt_iff] at *
            omega
        refine ⟨List.pairwise_cons.mpr ⟨hk, hs⟩, ?_, by simp, by simp⟩
        simp only [true_iff]
        intro hm
        obtain ⟨e', he', e2⟩ := List.mem_map.mp hm
        have := hk e' he'
        rw [e2, keyLt_iff] at this
        omega
      · rw [if_neg h2]
        obtain ⟨ih1, ih2, ih3, ih4⟩ := emplace_spec k v es ht
        refine ⟨List.pairwise_cons.mpr ⟨?_, ih1⟩, ?_, ?_, ?_⟩
        · intro e' he'
          rcases ih4 e' he' with rfl | h
          · dsimp only
            rw [keyLt_iff] at h2 ⊢
            have hne : keyNum e.1 ≠ keyNum k := fun h => h1 (keyNum_inj h)
            rw [Ne, Prod.ext_iff] at hne
            omega
          · exact hh e' h
        · simp only [List.map_cons, List.mem_cons, not_or]
          rw [ih2]
          exact ⟨fun h => ⟨fun e => h1 e.symm, h⟩, fun h => h.2⟩
        · intro h e'
          simp only [List.mem_cons]
          rw [ih3 h]
          tauto
        · intro e' he'
          rcases List.mem_cons.mp he' with rfl | he'
          · exact Or.inr (List.mem_cons_self ..)
          · rcases ih4 e' he' with h | h
            · exact Or.inl h
            · exact Or.inr (List.mem_cons_of_mem _ h)

theorem giveOptions_spec : ∀ (os : List ((Target × Option Nat) × Int)) (d : Deferred), SortedD d →
    ((giveOptions os d).isSome = true ↔ (os.map (·.1)).Nodup ∧ ∀ k ∈ os.map (·.1), k ∉ d.map (·.1)) ∧
    ∀ d', giveOptions os d = some d' → SortedD d' ∧ ∀ e, e ∈ d' ↔ e ∈ os ∨ e ∈ d
  | [], d, hs => by
    refine ⟨by simp [giveOptions], ?_⟩
    intro d' h
    injection h with h
    subst h
    exact ⟨hs, by simp⟩
  | (k, v) :: os, d, hs => by
    obtain ⟨e1, e2, e3, e4⟩ := emplace_spec k v d hs
    unfold giveOptions
    by_cases hf : (d.emplace k v).1 = true
    · rw [if_pos hf]
      obtain ⟨i1, i2⟩ := giveOptions_spec os _ e1
      have hm := e3 hf
      have hkeys : ∀ k', k' ∈ (d.emplace k v).2.map (·.1) ↔ k' = k ∨ k' ∈ d.map (·.1) := by
        intro k'
        simp only [List.mem_map]
        constructor
        · rintro ⟨e, he, rfl⟩
          rcases (hm e).mp he with rfl | h
          · exact Or.inl rfl
          · exact Or.inr ⟨e, h, rfl⟩
        · rintro (rfl | ⟨e, he, rfl⟩)
          · exact ⟨(k', v), (hm _).mpr (Or.inl rfl), rfl⟩
          · exact ⟨e, (hm _).mpr (Or.inr he), rfl⟩
      constructor
      · rw [i1]
        simp only [List.map_cons, List.nodup_cons, List.mem_cons, forall_eq_or_imp]
        constructor
        · rintro ⟨h1, h2⟩
          refine ⟨⟨?_, h1⟩, e2.mp hf, ?_⟩
          · intro hk
            exact h2 k hk ((hkeys k).mpr (Or.inl rfl))
          · intro k' hk' hd
            exact h2 k' hk' ((hkeys k').mpr (Or.inr hd))
        · rintro ⟨⟨h1, h2⟩, h3, h4⟩
          refine ⟨h2, ?_⟩
          intro k' hk' hd
          rcases (hkeys k').mp hd with rfl | hd
          · exact h1 hk'
          · exact h4 k' hk' hd
      · intro d' h
        obtain ⟨j1, j2⟩ := i2 d' h
        refine ⟨j1, fun e => ?_⟩
        rw [j2, hm, List.mem_cons]
        tauto
    · rw [if_neg hf]
      refine ⟨?_, by simp⟩
      simp only [Option.isSome_none, Bool.false_eq_true, false_iff, not_and, not_forall, not_not]
      intro _
      have : k ∈ d.map (·.1) := by
        by_contra hc
        exact hf (e2.mpr hc)
      exact ⟨k, by simp, this⟩

theorem lastFor_unique {g : Target} {t : Nat} {l : List ((Target × Option Nat) × Int)} {k : Target × Option Nat} {o : Option Int}
    (hk : ∀ e ∈ l, (e.1.1 = g ∧ (e.1.2 = none ∨ e.1.2 = some t)) ↔ e.1 = k) (ho : ∀ v, o = some v ↔ (k, v) ∈ l) : lastFor g t l = o := by
  unfold lastFor
  cases hf : l.reverse.find? (fun e => decide (e.1.1 = g ∧ (e.1.2 = none ∨ e.1.2 = some t))) with
  | some e =>
    have hm := List.mem_reverse.mp (List.mem_of_find?_eq_some hf)
    have hp := List.find?_some hf
    rw [decide_eq_true_iff] at hp
    have := (hk e hm).mp hp
    rw [Option.map_some]
    symm
    rw [ho, ← this]
    exact hm
  | none =>
    cases o with
    | none => rfl
    | some v =>
      have hm := (ho v).mp rfl
      have := List.find?_eq_none.mp hf (k, v) (List.mem_reverse.mpr hm)
      exact absurd ((hk _ hm).mpr rfl) (by simpa using this)

theorem lookup_iff {k : Target × Option Nat} : ∀ {os : List ((Target × Option Nat) × Int)}, (os.map (·.1)).Nodup → ∀ v, os.lookup k = some v ↔ (k, v) ∈ os
  | [], _, v => by simp
  | (k', v') :: os, h, v => by
    obtain ⟨h1, h2⟩ := List.nodup_cons.mp h
    rw [List.lookup_cons]
    by_cases e : k = k'
    · subst e
      simp only [beq_self_eq_true, Option.some.injEq, List.mem_cons, Prod.mk.injEq, true_and]
      constructor
      · rintro rfl; exact Or.inl rfl
      · rintro (rfl | hm)
        · rfl
        · exact absurd (List.mem_map_of_mem (f := (·.1)) hm) h1
    · rw [show (k == k') = false by simpa using e]
      simp only [lookup_iff h2 v, List.mem_cons, Prod.mk.injEq]
      constructor
      · exact Or.inr
      · rintro (⟨rfl, _⟩ | hm)
        · exact absurd rfl e
        · exact hm

theorem digits_iff : ∀ (s : List Char) (n m : Nat), digits n s = some m ↔
    (∀ c ∈ s, c.isDigit = true) ∧ m = s.foldl (fun n c => 10 * n + (c.toNat - 48)) n
  | [], n, m => by
    simp only [digits, Option.some.injEq, List.foldl_nil, List.not_mem_nil, false_implies, implies_true, true_and]
    exact eq_comm
  | c :: s, n, m => by
    unfold digits
    by_cases h : c.isDigit = true
    · rw [if_pos h, digits_iff s]
      simp [h]
    · rw [if_neg h]
      simp [h]

theorem signed_iff (s : List Char) (v : Int) : Decimal s v ↔ ∃ neg n, signedDigits s = some (neg, n) ∧ v = if neg then -(n : Int) else n := by
  have hd : ∀ (c : Char) (r : List Char) (n : Nat), DecDigits (c :: r) n ↔ digits 0 (c :: r) = some n := by
    intro c r n
    rw [digits_iff]
    simp [DecDigits]
  have hm : ∀ ds n, DecDigits ds n → ∀ r, ds ≠ '-' :: r ∧ ds ≠ '+' :: r ∧ ds ≠ [] := by
    rintro ds n ⟨h1, h2, -⟩ r
    refine ⟨?_, ?_, h1⟩ <;> rintro rfl
    · have := h2 '-' (by simp); revert this; decide
    · have := h2 '+' (by simp); revert this; decide
  constructor
  · rintro ⟨ds, n, h, h1⟩
    obtain ⟨c, r, rfl⟩ : ∃ c r, ds = c :: r := by
      cases ds with
      | nil => exact absurd rfl (hm _ _ h []).2.2
      | cons c r => exact ⟨c, r, rfl⟩
    have hx := (hd c r n).mp h
    rcases h1 with ⟨rfl, rfl⟩ | ⟨rfl, rfl⟩ | ⟨rfl, rfl⟩
    · refine ⟨false, n, ?_, rfl⟩
      unfold signedDigits
      split
      all_goals first
        | (rename_i e; exact absurd e (hm _ _ h _).1)
        | (rename_i e; exact absurd e (hm _ _ h _).2.1)
        | (rename_i e; cases e)
        | skip
      rename_i e
      rw [hx]; rfl
    · exact ⟨false, n, by simp only [signedDigits, hx]; rfl, rfl⟩
    · exact ⟨true, n, by simp only [signedDigits, hx]; rfl, rfl⟩
  · rintro ⟨neg, n, h, h1⟩
    have fin : ∀ (c : Char) (r : List Char) (b : Bool), (digits 0 (c :: r)).map (fun n => (b, n)) = some (neg, n) →
        DecDigits (c :: r) n ∧ neg = b := by
      intro c r b e
      cases hx : digits 0 (c :: r) with
      | none => rw [hx] at e; cases e
      | some m => rw [hx] at e; cases e; exact ⟨(hd c r _).mpr hx, rfl⟩
    unfold signedDigits at h
    split at h
    all_goals first
      | cases h
      | skip
    all_goals
      obtain ⟨h2, h3⟩ := fin _ _ _ h
      subst h3
      exact ⟨_, n, h2, by simp [h1]⟩

theorem strtonum_int {s : List Char} {v : Int} : strtonum .int32 s = .ok v ↔ Decimal s v ∧ -2147483648 ≤ v ∧ v ≤ 2147483647 := by
  rw [signed_iff]
  unfold strtonum
  cases hs : signedDigits s with
  | none => simp
  | some p =>
    obtain ⟨neg, n⟩ := p
    dsimp only
    have e : ∀ P : Bool → Nat → Prop, (∃ neg' n', some (neg, n) = some (neg', n') ∧ P neg' n') ↔ P neg n := by
      intro P
      constructor
      · rintro ⟨a, b, h, h'⟩; cases h; exact h'
      · exact fun h => ⟨_, _, rfl, h⟩
    rw [e (fun neg' n' => v = if neg' = true then -(n' : Int) else n')]
    by_cases h : NumType.int32.lowest ≤ (if neg = true then -(n : Int) else n) ∧ (if neg = true then -(n : Int) else n) ≤ NumType.int32.highest
    · rw [if_pos h]
      simp only [NumType.lowest, NumType.highest] at h
      constructor
      · intro hv; injection hv with hv; rw [← hv]; exact ⟨rfl, h⟩
      · rintro ⟨rfl, -⟩; rfl
    · rw [if_neg h]
      simp only [NumType.lowest, NumType.highest] at h
      constructor
      · intro hv; cases hv
      · rintro ⟨rfl, h'⟩; exact absurd h' h

theorem strtonum_uint {s : List Char} {v : Int} :
    strtonum .uint32 s = .ok v ↔ ∃ u, Decimal s u ∧ -4294967295 ≤ u ∧ u ≤ 4294967295 ∧ v = u % 4294967296 := by
  simp only [signed_iff]
  unfold strtonum
  cases hs : signedDigits s with
  | none => simp
  | some p =>
    obtain ⟨neg, n⟩ := p
    dsimp only
    by_cases h : (n : Int) ≤ NumType.uint32.highest
    · rw [if_pos h]
      simp only [NumType.highest] at h
      constructor
      · intro hv
        injection hv with hv
        refine ⟨if neg = true then -(n : Int) else n, ⟨neg, n, rfl, rfl⟩, ?_, ?_, ?_⟩
        · split_ifs <;> omega
        · split_ifs <;> omega
        · rw [← hv]; split_ifs <;> omega
      · rintro ⟨u, ⟨neg', n', h1, h2⟩, h3, h4, h5⟩
        cases h1
        rw [h5, h2]
        congr 1
        split_ifs <;> omega
    · rw [if_neg h]
      simp only [NumType.highest] at h
      constructor
      · intro hv; cases hv
      · rintro ⟨u, ⟨neg', n', h1, h2⟩, h3, h4, h5⟩
        cases h1
        exfalso
        split_ifs at h2 <;> omega

theorem not_keyword {t : NumType} {s : List Char} {v : Int} (h : strtonum t s = .ok v) : s ≠ "min".toList ∧ s ≠ "max".toList := by
  constructor <;> rintro rfl <;> cases t <;> cases h

theorem parseNum_iff {t : NumType} {s : List Char} {lo hi v : Int} : parseNum t s lo hi = .ok v ↔
    (s = "min".toList ∧ v = lo) ∨ (s = "max".toList ∧ v = hi) ∨ (strtonum t s = .ok v ∧ lo ≤ v ∧ v ≤ hi) := by
  unfold parseNum parseRangeNum
  rw [if_pos rfl, if_pos rfl]
  by_cases h1 : s = "min".toList
  · subst h1
    rw [if_pos (by decide)]
    constructor
    · intro h; injection h with h; exact Or.inl ⟨rfl, h.symm⟩
    · rintro (⟨-, h⟩ | ⟨h, -⟩ | ⟨h, -⟩)
      · rw [h]
      · exact absurd h (by decide)
      · exact absurd rfl (not_keyword h).1
  · rw [if_neg (by simpa using h1)]
    by_cases h2 : s = "max".toList
    · subst h2
      rw [if_pos (by decide)]
      constructor
      · intro h; injection h with h; exact Or.inr (Or.inl ⟨rfl, h.symm⟩)
      · rintro (⟨h, -⟩ | ⟨-, h⟩ | ⟨h, -⟩)
        · exact absurd h (by decide)
        · rw [h]
        · exact absurd rfl (not_keyword h).2
    · rw [if_neg (by simpa using h2)]
      simp only [h1, h2, false_and, false_or]
      cases strtonum t s with
      | error e => constructor
                   · intro h; cases h
                   · rintro ⟨h, -⟩; cases h
      | ok w =>
        show (if lo ≤ w ∧ w ≤ hi then _ else _) = _ ↔ _
        by_cases hw : lo ≤ w ∧ w ≤ hi
        · rw [if_pos hw]
          constructor
          · intro h; cases h; exact ⟨rfl, hw⟩
          · rintro ⟨h, -⟩; exact h
        · rw [if_neg hw]
          constructor
          · intro h; cases h
          · rintro ⟨h, h'⟩; cases h; exact absurd h' hw

theorem setValue_ints (c : Conf) (g : Target) (v : Int) (t : Option Nat) : (c.setValue g v t).minInt = c.minInt ∧ (c.setValue g v t).maxInt = c.maxInt := by
  cases t <;> exact ⟨rfl, rfl⟩

theorem applyDeferred_ints (b : Bool) : ∀ (d : Deferred) (c : Conf), (applyDeferred b d c).minInt = c.minInt ∧ (applyDeferred b d c).maxInt = c.maxInt
  | [], c => ⟨rfl, rfl⟩
  | e :: d, c => by
    have ih := applyDeferred_ints b d
    unfold applyDeferred at ih ⊢
    rw [List.foldl_cons, (ih _).1, (ih _).2]
    split
    · exact setValue_ints ..
    · exact ⟨rfl, rfl⟩

theorem isPrefix_iff : ∀ {a b : List Char}, isPrefix a b = true ↔ a <+: b
  | [], b => by simp [isPrefix]
  | x :: a, [] => by simp [isPrefix]
  | x :: a, y :: b => by
    rw [isPrefix, Bool.and_eq_true, isPrefix_iff, List.cons_prefix_cons]
    simp

end Clingcon
