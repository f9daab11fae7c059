import Verif.Proof.Nonlinear
import Verif.Proof.Distinct
import Verif.Proof.Nested
import Verif.Spec.BoundLits
import Mathlib.Data.Int.Interval

/-! Propagation of disjoint constraints loses no solutions. -/
namespace Clingcon
open Spec VarState

variable {β : Nat → Bool} {σ : Nat → Int} {F : List VarState × Book} {m : Bool} {α : Type} {ty : Bool}

/-! ### Intervals that fit into a range -/

/-- The intervals starting at the first components with the second components as lengths have no common point. -/
def Apart (a b : Int × Int) : Prop := ¬ ∃ x, (a.1 ≤ x ∧ x < a.1 + a.2) ∧ (b.1 ≤ x ∧ x < b.1 + b.2)

theorem Apart.symm {a b : Int × Int} (h : Apart a b) : Apart b a := fun ⟨x, h1, h2⟩ => h ⟨x, h2, h1⟩

def coveredSet : List (Int × Int) → Finset Int
  | [] => ∅
  | p :: S => Finset.Icc p.1 (p.1 + p.2 - 1) ∪ coveredSet S

theorem mem_coveredSet {x : Int} : ∀ {S : List (Int × Int)}, x ∈ coveredSet S ↔ ∃ p ∈ S, p.1 ≤ x ∧ x < p.1 + p.2
  | [] => by simp [coveredSet]
  | p :: S => by
    rw [coveredSet, Finset.mem_union, Finset.mem_Icc, mem_coveredSet]
    constructor
    · rintro (h | ⟨q, h1, h2⟩)
      · exact ⟨p, List.mem_cons_self .., h.1, by omega⟩
      · exact ⟨q, List.mem_cons_of_mem _ h1, h2⟩
    · rintro ⟨q, h1, h2⟩
      rcases List.mem_cons.mp h1 with rfl | h1
      · left; omega
      · exact .inr ⟨q, h1, h2⟩

theorem card_covered : ∀ {S : List (Int × Int)}, S.Pairwise Apart → (∀ p ∈ S, 1 ≤ p.2) → ((coveredSet S).card : Int) = (S.map Prod.snd).sum
  | [], _, _ => rfl
  | p :: S, h, hw => by
    obtain ⟨h1, h2⟩ := List.pairwise_cons.mp h
    have h0 := hw p (List.mem_cons_self ..)
    rw [coveredSet, Finset.card_union_of_disjoint, List.map_cons, List.sum_cons, ← card_covered h2 (fun q hq => hw q (List.mem_cons_of_mem _ hq)), Int.card_Icc]
    · push_cast; omega
    · rw [Finset.disjoint_left]
      intro x hx hx'
      rw [Finset.mem_Icc] at hx
      obtain ⟨q, h3, h4⟩ := mem_coveredSet.mp hx'
      exact h1 q h3 ⟨x, ⟨hx.1, by omega⟩, h4⟩

/-- Disjoint intervals between `a` and `b` have at most `b - a + 1` points. -/
theorem fits {S : List (Int × Int)} {a b : Int} (h : S.Pairwise Apart) (hw : ∀ p ∈ S, 1 ≤ p.2) (hne : S ≠ [])
    (hr : ∀ p ∈ S, a ≤ p.1 ∧ p.1 + p.2 - 1 ≤ b) : (S.map Prod.snd).sum ≤ b - a + 1 := by
  rw [← card_covered h hw]
  have h1 : coveredSet S ⊆ Finset.Icc a b := by
    intro x hx
    obtain ⟨p, h2, h3⟩ := mem_coveredSet.mp hx
    have := hr p h2
    rw [Finset.mem_Icc]; omega
  have h2 := Finset.card_le_card h1
  rw [Int.card_Icc] at h2
  obtain ⟨p, hp⟩ := List.exists_mem_of_ne_nil S hne
  have := hr p hp
  have := hw p hp
  omega

/-! ### Intervals of the constraint -/

/-- The start of an interval in the direction of the algorithm. -/
def place (σ : Nat → Int) (ty : Bool) (i : DInterval) : Int := if ty then σ i.var else -(σ i.var + i.weight - 1)

/-- The bounds of the interval are the current ones. -/
structure Loaded (F : List VarState × Book) (i : DInterval) : Prop where
  left : i.left = loF F i.var
  right : i.right = upF F i.var + i.weight - 1
  weight : 1 ≤ i.weight

theorem Loaded.place {i : DInterval} (h : Loaded F i) (hv : InF σ F i.var) : i.lo ty ≤ place σ ty i ∧ place σ ty i + i.weight - 1 ≤ i.hi ty := by
  obtain ⟨h1, h2, h3⟩ := h
  unfold DInterval.lo DInterval.hi Clingcon.place
  unfold InF at hv
  cases ty <;> simp <;> omega

/-- The bounds are current, and the intervals are apart if the literal is true. -/
structure OkI (β : Nat → Bool) (σ : Nat → Int) (F : List VarState × Book) (clit : Int) (is : List DInterval) : Prop where
  loaded : ∀ i ∈ is, Loaded F i
  apart : litTrue β clit → is.Pairwise (fun i j => Apart (σ i.var, i.weight) (σ j.var, j.weight))

theorem apart_symm : Symmetric (fun (i j : DInterval) => Apart (σ i.var, i.weight) (σ j.var, j.weight)) := fun _ _ h => h.symm

theorem OkI.perm {clit : Int} {is js : List DInterval} (h : OkI β σ F clit is) (hp : (js.map core).Perm (is.map core)) : OkI β σ F clit js := by
  constructor
  · intro j hj
    have : core j ∈ is.map core := hp.mem_iff.mp (List.mem_map_of_mem hj)
    obtain ⟨i, hi, e⟩ := List.mem_map.mp this
    obtain ⟨h1, h2, h3⟩ := h.loaded i hi
    have h1 : (core i).left = loF F (core i).var := h1
    have h2 : (core i).right = upF F (core i).var + (core i).weight - 1 := h2
    have h3 : 1 ≤ (core i).weight := h3
    rw [e] at h1 h2 h3
    exact ⟨h1, h2, h3⟩
  · intro ht
    have h1 : (is.map core).Pairwise (fun i j => Apart (σ i.var, i.weight) (σ j.var, j.weight)) := List.pairwise_map.mpr (h.apart ht)
    have h2 := (hp.pairwise_iff (fun h => apart_symm h)).mpr h1
    exact (List.pairwise_map (f := core) (R := fun i j => Apart (σ i.var, i.weight) (σ j.var, j.weight))).mp h2

theorem OkI.sub {clit : Int} {is js : List DInterval} (h : OkI β σ F clit is) (hs : js.Sublist is) : OkI β σ F clit js :=
  ⟨fun i hi => h.loaded i (hs.mem hi), fun ht => (h.apart ht).sublist hs⟩

theorem apart_place {i j : DInterval} (h : Apart (σ i.var, i.weight) (σ j.var, j.weight)) : Apart (place σ ty i, i.weight) (place σ ty j, j.weight) := by
  cases ty with
  | true => exact h
  | false =>
    rintro ⟨x, h1, h2⟩
    refine h ⟨-x, ?_, ?_⟩
    · unfold place at h1; simp at h1 ⊢; omega
    · unfold place at h2; simp at h2 ⊢; omega

/-- The sum of the weights of the intervals starting at `a` or later. -/
def wge (ty : Bool) (a : Int) (is : List DInterval) : Int := ((is.filter (fun i => decide (i.lo ty ≥ a))).map DInterval.weight).sum

theorem wge_append {a : Int} {is js : List DInterval} : wge ty a (is ++ js) = wge ty a is + wge ty a js := by
  unfold wge; rw [List.filter_append, List.map_append, List.sum_append]

theorem wge_single {a : Int} {i : DInterval} : wge ty a [i] = if i.lo ty ≥ a then i.weight else 0 := by
  unfold wge
  by_cases h : i.lo ty ≥ a <;> simp [h]

theorem wge_cons {a : Int} {i : DInterval} {is : List DInterval} : wge ty a (i :: is) = (if i.lo ty ≥ a then i.weight else 0) + wge ty a is := by
  rw [← wge_single, ← wge_append]; rfl

theorem wge_core {a : Int} {is : List DInterval} : wge ty a (is.map core) = wge ty a is := by
  induction is with
  | nil => rfl
  | cons i is ih => rw [List.map_cons, wge_cons, wge_cons, ih]; rfl

theorem wge_congr {a : Int} {is js : List DInterval} (h : is.map core = js.map core) : wge ty a is = wge ty a js := by
  rw [← wge_core, h, wge_core]

/-- The intervals starting at `a` or later and ending at `b` or earlier cannot be apart if their weights exceed the room,
and if they fill the room, other intervals starting after `a` start after `b`. -/
theorem crowded {clit a b : Int} {is : List DInterval} (hok : OkI β σ F clit is) (ht : litTrue β clit) (hb : ∀ i ∈ is, i.hi ty ≤ b)
    (hin : ∀ i ∈ is, i.lo ty ≥ a → InF σ F i.var) (hne : ∃ i ∈ is, i.lo ty ≥ a) : wge ty a is ≤ b - a + 1 := by
  have h1 := fits (S := (is.filter (fun i => decide (i.lo ty ≥ a))).map (fun i => (place σ ty i, i.weight))) (a := a) (b := b) ?_ ?_ ?_ ?_
  · rw [List.map_map] at h1
    exact h1
  · exact List.pairwise_map.mpr (((hok.apart ht).filter _).imp (fun h => apart_place h))
  · intro p hp
    obtain ⟨i, hi, rfl⟩ := List.mem_map.mp hp
    exact (hok.loaded i (List.mem_filter.mp hi).1).weight
  · obtain ⟨i, hi, h⟩ := hne
    exact List.ne_nil_of_mem (List.mem_map_of_mem (List.mem_filter.mpr ⟨hi, by simpa using h⟩))
  · intro p hp
    obtain ⟨i, hi, rfl⟩ := List.mem_map.mp hp
    obtain ⟨h2, h3⟩ := List.mem_filter.mp hi
    have h3 : i.lo ty ≥ a := by simpa using h3
    have h4 := (hok.loaded i h2).place (ty := ty) (hin i h2 h3)
    have := hb i h2
    dsimp only
    omega

theorem hall {clit a b : Int} {is : List DInterval} {j : DInterval} (hok : OkI β σ F clit (is ++ [j])) (ht : litTrue β clit) (hb : ∀ i ∈ is, i.hi ty ≤ b)
    (hin : ∀ i ∈ is, i.lo ty ≥ a → InF σ F i.var) (hfull : b ≤ a - 1 + wge ty a is) (hj : a ≤ place σ ty j) : b < place σ ty j := by
  by_contra hcon
  have hcon : place σ ty j ≤ b := by omega
  have hj1 := (hok.loaded j (by simp)).weight
  have hp := hok.apart ht
  rw [List.pairwise_append] at hp
  have h1 := fits (S := (place σ ty j, 1) :: (is.filter (fun i => decide (i.lo ty ≥ a))).map (fun i => (place σ ty i, i.weight))) (a := a) (b := b) ?_ ?_ (by simp) ?_
  · rw [List.map_cons, List.sum_cons, List.map_map] at h1
    have : wge ty a is = (List.map (Prod.snd ∘ fun i => (place σ ty i, i.weight)) (is.filter (fun i => decide (i.lo ty ≥ a)))).sum := rfl
    rw [← this] at h1
    omega
  · refine List.pairwise_cons.mpr ⟨fun p hp' => ?_, List.pairwise_map.mpr ((hp.1.filter _).imp (fun h => apart_place h))⟩
    obtain ⟨i, hi, rfl⟩ := List.mem_map.mp hp'
    have h2 := apart_place (ty := ty) (hp.2.2 i (List.mem_filter.mp hi).1 j (by simp))
    rintro ⟨x, h3, h4⟩
    dsimp only at h3 h4
    exact h2 ⟨x, h4, h3.1, by dsimp only; omega⟩
  · intro p hp'
    rcases List.mem_cons.mp hp' with rfl | hp'
    · exact le_refl _
    · obtain ⟨i, hi, rfl⟩ := List.mem_map.mp hp'
      exact (hok.loaded i (by simp [(List.mem_filter.mp hi).1])).weight
  · intro p hp'
    rcases List.mem_cons.mp hp' with rfl | hp'
    · dsimp only; omega
    · obtain ⟨i, hi, rfl⟩ := List.mem_map.mp hp'
      obtain ⟨h2, h3⟩ := List.mem_filter.mp hi
      have h3 : i.lo ty ≥ a := by simpa using h3
      have h4 := (hok.loaded i (by simp [h2])).place (ty := ty) (hin i h2 h3)
      have := hb i h2
      dsimp only
      omega

theorem hall' {clit a b : Int} {is js : List DInterval} {j : DInterval} (hok : OkI β σ F clit (is ++ js)) (ht : litTrue β clit) (hb : ∀ i ∈ is, i.hi ty ≤ b)
    (hin : ∀ i ∈ is, i.lo ty ≥ a → InF σ F i.var) (hfull : b ≤ a - 1 + wge ty a is) (hm : j ∈ js) (hj : a ≤ place σ ty j) : b < place σ ty j :=
  hall (hok.sub (List.Sublist.append (List.Sublist.refl _) (List.singleton_sublist.mpr hm))) ht hb hin hfull hj

/-! ### Inserting an interval -/

/-- The values `u` are not too large. -/
def UI (ty : Bool) (is : List DInterval) : Prop := ∀ j ∈ is, j.u ≤ j.lo ty - 1 + wge ty (j.lo ty) is

theorem minK_some {k : Option Int} {l a : Int} (h : minK k l = some a) : a = l ∨ k = some a := by
  unfold minK at h
  split at h
  · injection h with h; exact .inl h.symm
  · split_ifs at h
    · injection h with h; exact .inl h.symm
    · exact .inr h

/-- The loop inserting `i`; `all` are the intervals before it and `i`. -/
theorem scan_spec {i : DInterval} {all : List DInterval} (hi : 0 ≤ i.weight) : ∀ {js : List DInterval} {u : Int} {k : Option Int} {r : DScan},
    disjointScan ty i js u k = r → (∀ j ∈ js, 0 ≤ j.weight) →
    (∀ j ∈ js, j.u + (if i.lo ty ≥ j.lo ty then i.weight else 0) ≤ j.lo ty - 1 + wge ty (j.lo ty) all) →
    r.pre.map core = js.map core ∧
    (∀ j ∈ r.pre, j.u ≤ j.lo ty - 1 + wge ty (j.lo ty) all) ∧
    r.u ≤ u + wge ty (i.lo ty) js ∧
    (∀ a, r.conflict = some a → (∃ j ∈ js, j.lo ty = a) ∧ i.hi ty < a - 1 + wge ty a all) ∧
    (∀ a, r.k = some a → k = some a ∨ ((∃ j ∈ js, j.lo ty = a) ∧ i.hi ty ≤ a - 1 + wge ty a all))
  | [], u, k, r, h, _, _ => by
    subst h
    refine ⟨rfl, fun j hj => ?_, ?_, fun a h => ?_, fun a h => .inl h⟩
    · cases hj
    · simp [disjointScan, wge]
    · cases h
  | j :: js, u, k, r, h, hw, hu => by
    have hw' : ∀ j ∈ js, 0 ≤ j.weight := fun j hj => hw j (List.mem_cons_of_mem _ hj)
    have hu' : ∀ j ∈ js, j.u + (if i.lo ty ≥ j.lo ty then i.weight else 0) ≤ j.lo ty - 1 + wge ty (j.lo ty) all := fun j hj => hu j (List.mem_cons_of_mem _ hj)
    have hj0 := hu j (List.mem_cons_self ..)
    have hwj := hw j (List.mem_cons_self ..)
    have hle : ∀ j ∈ js, j.u ≤ j.lo ty - 1 + wge ty (j.lo ty) all := by
      intro j hj
      have := hu' j hj
      split_ifs at this <;> omega
    unfold disjointScan at h
    by_cases hlt : j.lo ty < i.lo ty
    · rw [if_pos hlt] at h
      rw [if_pos (by omega)] at hj0
      dsimp only at h
      by_cases hc : j.u + i.weight > i.hi ty
      · rw [if_pos hc] at h
        subst h
        refine ⟨rfl, fun j' hj' => ?_, ?_, fun a ha => ?_, fun a ha => .inl ha⟩
        · rcases List.mem_cons.mp hj' with rfl | hj'
          · exact hj0
          · exact hle j' hj'
        · dsimp only
          have h0 : 0 ≤ wge ty (i.lo ty) (j :: js) := by
            unfold wge
            refine List.sum_nonneg (fun x hx => ?_)
            obtain ⟨y, hy, rfl⟩ := List.mem_map.mp hx
            exact hw y (List.mem_filter.mp hy).1
          omega
        · injection ha with ha
          subst ha
          exact ⟨⟨j, List.mem_cons_self .., rfl⟩, by omega⟩
      · rw [if_neg hc] at h
        subst h
        obtain ⟨h1, h2, h3, h4, h5⟩ := scan_spec hi rfl hw' hu' (u := u) (k := if j.u + i.weight = i.hi ty then minK k (j.lo ty) else k) (js := js)
        refine ⟨?_, fun j' hj' => ?_, ?_, fun a ha => ?_, fun a ha => ?_⟩
        · dsimp only; rw [List.map_cons, List.map_cons, h1]; rfl
        · dsimp only at hj'
          rcases List.mem_cons.mp hj' with rfl | hj'
          · exact hj0
          · exact h2 j' hj'
        · dsimp only
          rw [wge_cons, if_neg (show ¬ j.lo ty ≥ i.lo ty by omega)]; omega
        · obtain ⟨⟨j', h6, h7⟩, h8⟩ := h4 a ha
          exact ⟨⟨j', List.mem_cons_of_mem _ h6, h7⟩, h8⟩
        · rcases h5 a ha with h6 | ⟨⟨j', h6, h7⟩, h8⟩
          · split_ifs at h6 with he
            · rcases minK_some h6 with rfl | h6
              · exact .inr ⟨⟨j, List.mem_cons_self .., rfl⟩, by omega⟩
              · exact .inl h6
            · exact .inl h6
          · exact .inr ⟨⟨j', List.mem_cons_of_mem _ h6, h7⟩, h8⟩
    · rw [if_neg hlt] at h
      subst h
      obtain ⟨h1, h2, h3, h4, h5⟩ := scan_spec hi rfl hw' hu' (u := u + j.weight) (k := k) (js := js)
      refine ⟨?_, fun j' hj' => ?_, ?_, fun a ha => ?_, fun a ha => ?_⟩
      · dsimp only; rw [List.map_cons, List.map_cons, h1]
      · dsimp only at hj'
        rcases List.mem_cons.mp hj' with rfl | hj'
        · split_ifs at hj0 <;> omega
        · exact h2 j' hj'
      · dsimp only
        rw [wge_cons, if_pos (by omega)]; omega
      · obtain ⟨⟨j', h6, h7⟩, h8⟩ := h4 a ha
        exact ⟨⟨j', List.mem_cons_of_mem _ h6, h7⟩, h8⟩
      · rcases h5 a ha with h6 | ⟨⟨j', h6, h7⟩, h8⟩
        · exact .inl h6
        · exact .inr ⟨⟨j', List.mem_cons_of_mem _ h6, h7⟩, h8⟩

/-! ### Literals of the current bounds -/

theorem Nested.min {vs : VarState} (h : Nested vs) : vs.minBound ≤ vs.lower := by
  unfold VarState.minBound
  cases hl : vs.lowerStack.getLast? with
  | none => exact le_refl _
  | some p => exact (List.pairwise_cons.mp h.low).1 p.2 (List.mem_map_of_mem (List.mem_of_getLast? hl))

theorem Nested.max {vs : VarState} (h : Nested vs) : vs.upper ≤ vs.maxBound := by
  unfold VarState.maxBound
  cases hl : vs.upperStack.getLast? with
  | none => exact le_refl _
  | some p => exact (List.pairwise_cons.mp h.upp).1 p.2 (List.mem_map_of_mem (List.mem_of_getLast? hl))

theorem boundLits_log {cc : CC} {W : World} {new : List SEv} (hv : EnvMono cc) (h : BoundLits cc W) : BoundLits cc { W with log := new ++ W.log } := by
  induction new with
  | nil => exact h
  | cons e new ih =>
    intro v vs hvs
    obtain ⟨h1, h2⟩ := ih v vs hvs
    exact ⟨fun hh => let ⟨l, a, b⟩ := h1 hh; ⟨l, a, hv.isFalse b⟩, fun hh => let ⟨l, a, b⟩ := h2 hh; ⟨l, a, hv.isTrue b⟩⟩

theorem boundLits_set {cc : CC} {W : World} {v : Nat} {vs vs' : VarState} (h : BoundLits cc W) (hv : W.vars[v]? = some vs) (he : vs' = { vs with table := vs'.table })
    (hm : ∀ p ∈ vs.with, p ∈ vs'.with) : BoundLits cc { W with vars := W.vars.set v vs' } := by
  have a1 : vs'.lower = vs.lower := by rw [he]
  have a2 : vs'.upper = vs.upper := by rw [he]
  have a3 : vs'.minBound = vs.minBound := by rw [he]; rfl
  have a4 : vs'.maxBound = vs.maxBound := by rw [he]; rfl
  intro w ws hw
  dsimp only at hw
  rw [List.getElem?_set] at hw
  split_ifs at hw with h1 h2
  · subst h1
    injection hw with hw
    subst hw
    obtain ⟨h3, h4⟩ := h v vs hv
    rw [a1, a2, a3, a4]
    exact ⟨fun hh => let ⟨l, a, b⟩ := h3 hh; ⟨l, hm _ a, b⟩, fun hh => let ⟨l, a, b⟩ := h4 hh; ⟨l, hm _ a, b⟩⟩
  · exact h w ws hw

theorem GotLit.boundLits {cc : CC} {W W' : World} {v : Nat} {k l : Int} (hv : EnvMono cc) (h : GotLit W v k l W') (hb : BoundLits cc W) : BoundLits cc W' := by
  cases h with
  | low => exact hb
  | high => exact hb
  | old vs vs' l h0 h1 h2 h3 h4 => exact boundLits_set hb h0 h4.eq (fun p hp => (h4.mem p.1 p.2).mpr hp)
  | new vs vs' l h0 h1 h2 h3 h4 =>
    have h5 := boundLits_set hb h0 h4.eq (fun p hp => (h4.mem p.1 p.2).mpr (by
      rw [if_neg]
      · exact hp
      · rintro rfl; exact h3 _ hp))
    have h6 := boundLits_log (new := [.watch (-l), .watch l, .order l v k, .lit W.nextLit]) hv h5
    exact fun w ws hw => h6 w ws hw

/-- Faithful states with given bounds in which bounds are justified by literals, and the literal of the constraint is true if fixed. -/
def PD (cc : CC) (β : Nat → Bool) (σ : Nat → Int) (F : List VarState × Book) (clit : Int) (W : World) : Prop :=
  (InvF β σ F W ∧ BoundLits cc W) ∧ FixedTrue cc β clit W.log

theorem FixedTrue.append {cc : CC} {clit : Int} {log new : List SEv} (h : FixedTrue cc β clit log) : FixedTrue cc β clit (new ++ log) := by
  induction new with
  | nil => exact h
  | cons e new ih => exact ih.cons e _

variable {cc : CC} {clit : Int}

theorem tr_lit {v : Nat} {k : Int} (he : EnvSound cc β) (hv : EnvMono cc) :
    Tr β σ m (PD cc β σ F clit) (getLiteral cc v k) (fun l W => PD cc β σ F clit W ∧ (l ≠ 0 ∧ (litTrue β l ↔ σ v ≤ k))) := by
  intro W l W' h
  obtain ⟨g, q⟩ := tr_getLiteral (σ := σ) (m := m) (F := F) he.tt W l W' h
  refine ⟨g, fun hp ha => ?_⟩
  obtain ⟨h1, h2⟩ := q hp.1.1 ha
  refine ⟨⟨⟨h1, (getLiteral_eff hp.1.1.1.wf hp.1.1.1.good.pos h).boundLits hv hp.1.2⟩, ?_⟩, h2⟩
  obtain ⟨new, e⟩ := g.1
  rw [e]
  exact hp.2.append

theorem tr_upd {v : Nat} {k : Int} (he : EnvSound cc β) (hv : EnvMono cc) :
    Tr β σ m (PD cc β σ F clit) (updateLiteral cc v k none) (fun l W => PD cc β σ F clit W ∧ (l ≠ 0 ∧ (litTrue β l ↔ σ v ≤ k))) := by
  intro W l W' h
  refine tr_lit he hv W l W' ?_
  unfold updateLiteral at h
  rw [bind_iff] at h
  obtain ⟨lvl, W1, h0, h⟩ := h
  rw [qLevel_iff] at h0
  obtain ⟨rfl, rfl⟩ := h0
  exact h

theorem tr_clauseD {c : List Int} (hv : EnvMono cc) (h : ∃ l ∈ c, litTrue β l) :
    Tr β σ m (PD cc β σ F clit) (addClause cc c) (fun _ W => PD cc β σ F clit W) := by
  intro W b W' hx
  obtain ⟨g, q⟩ := tr_clause (σ := σ) (m := m) (F := F) (cc := cc) (fun _ => h) W b W' hx
  refine ⟨g, fun hp ha => ⟨⟨(q hp.1.1 ha).1, ?_⟩, ?_⟩⟩
  · rw [(addClause_iff.mp hx).2]
    exact boundLits_log (new := [_]) hv hp.1.2
  · obtain ⟨new, e⟩ := g.1
    rw [e]
    exact hp.2.append

theorem Tr.getVarD {v : Nat} {x : VarState → SM α} {Q : α → World → Prop} (hx : ∀ vs, Ext' m (x vs))
    (h : ∀ vs, vs.lower = loF F v → vs.upper = upF F v → Tr β σ m (PD cc β σ F clit) (x vs) Q) :
    Tr β σ m (PD cc β σ F clit) (Clingcon.getVar v >>= x) Q := by
  refine Tr.bind (Q := fun vs W => PD cc β σ F clit W ∧ (vs.lower = loF F v ∧ vs.upper = upF F v)) (Tr.getVar ?_) (fun vs => ?_)
  · intro vs W hW hv
    have hf : F.1[v]? = some vs.bounds := by
      rw [← hW.1.1.2]; unfold frame; dsimp only; rw [List.getElem?_map, hv]; rfl
    refine ⟨hW, ?_, ?_⟩
    · unfold loF; rw [hf]; rfl
    · unfold upF; rw [hf]; rfl
  · exact Tr.assume (hx vs) (fun h1 => h vs h1.1 h1.2)

/-- The literal for the lower bound is false if it is fixed. -/
theorem tr_lowLit {v : Nat} (he : EnvSound cc β) (hv : EnvMono cc) (hn : ∀ y ∈ F.1, Nested y) (hin : v < F.1.length) :
    Tr β σ m (PD cc β σ F clit) (getLiteral cc v (loF F v - 1))
      (fun l W => (PD cc β σ F clit W ∧ FixedTrue cc β (-l) W.log) ∧ (l ≠ 0 ∧ (litTrue β l ↔ σ v ≤ loF F v - 1))) := by
  intro W l W' h
  obtain ⟨g, q⟩ := tr_lit (σ := σ) (m := m) (F := F) (clit := clit) he hv W l W' h
  refine ⟨g, fun hp ha => ?_⟩
  obtain ⟨h1, h2, h3⟩ := q hp ha
  refine ⟨⟨h1, ?_⟩, h2, h3⟩
  have hw' := h1.1.1.1.wf
  have hf := hp.1.1.2
  have hlen : v < W.vars.length := by rw [← hf] at hin; simpa [frame] using hin
  obtain ⟨vs, hvs⟩ : ∃ vs, W.vars[v]? = some vs := ⟨W.vars[v], by rw [List.getElem?_eq_getElem hlen]⟩
  have hfs : F.1[v]? = some vs.bounds := by rw [← hf]; unfold frame; dsimp only; rw [List.getElem?_map, hvs]; rfl
  have hlo : loF F v = vs.lower := by unfold loF; rw [hfs]; rfl
  have hns : Nested vs := nested_bounds.mp (hn _ (List.mem_of_getElem? hfs))
  have hbd := hp.1.1.1.good.bound v vs hvs
  have := hns.min
  have := hns.max
  have := hns.le
  rw [hlo] at h3 h
  intro new hall hfix
  rw [isFixed_neg] at hfix
  rw [Clingcon.litTrue_neg h2]
  by_cases hm : vs.minBound < vs.lower
  · have hg := getLiteral_eff hp.1.1.1.wf hp.1.1.1.good.pos h
    obtain ⟨l0, hl0, hfl⟩ := (hp.1.2 v vs hvs).1 hm
    have hlog : ∀ l, cc.isFalse W.log l = true → cc.isFalse (new ++ W'.log) l = true := by
      obtain ⟨new', e⟩ := g.1
      intro l hl
      rw [e, ← List.append_assoc]
      induction new ++ new' with
      | nil => exact hl
      | cons e more ih => exact hv.isFalse ih
    have hEq : l = l0 := by
      cases hg with
      | low vs1 hv1 hlt => rw [hvs] at hv1; injection hv1 with hv1; subst hv1; omega
      | high vs1 hv1 _ hlt => rw [hvs] at hv1; injection hv1 with hv1; subst hv1; omega
      | old vs1 vs' l hv1 _ _ hm1 _ => rw [hvs] at hv1; injection hv1 with hv1; subst hv1; exact with_unique (hp.1.1.1.wf v vs hvs) hm1 hl0
      | new vs1 vs' l hv1 _ _ hm1 => rw [hvs] at hv1; injection hv1 with hv1; subst hv1; exact absurd hl0 (hm1 _)
    subst hEq
    exact he.isFalse _ _ hall (hlog _ hfl) (.inl hfix)
  · rw [h3]; omega

/-- The literal for the upper bound is true if it is fixed. -/
theorem tr_uppLit {v : Nat} (he : EnvSound cc β) (hv : EnvMono cc) (hn : ∀ y ∈ F.1, Nested y) (hin : v < F.1.length) :
    Tr β σ m (PD cc β σ F clit) (getLiteral cc v (upF F v))
      (fun l W => (PD cc β σ F clit W ∧ FixedTrue cc β l W.log) ∧ (l ≠ 0 ∧ (litTrue β l ↔ σ v ≤ upF F v))) := by
  intro W l W' h
  obtain ⟨g, q⟩ := tr_lit (σ := σ) (m := m) (F := F) (clit := clit) he hv W l W' h
  refine ⟨g, fun hp ha => ?_⟩
  obtain ⟨h1, h2, h3⟩ := q hp ha
  refine ⟨⟨h1, ?_⟩, h2, h3⟩
  have hf := hp.1.1.2
  have hlen : v < W.vars.length := by rw [← hf] at hin; simpa [frame] using hin
  obtain ⟨vs, hvs⟩ : ∃ vs, W.vars[v]? = some vs := ⟨W.vars[v], by rw [List.getElem?_eq_getElem hlen]⟩
  have hfs : F.1[v]? = some vs.bounds := by rw [← hf]; unfold frame; dsimp only; rw [List.getElem?_map, hvs]; rfl
  have hup : upF F v = vs.upper := by unfold upF; rw [hfs]; rfl
  have hns : Nested vs := nested_bounds.mp (hn _ (List.mem_of_getElem? hfs))
  have hbd := hp.1.1.1.good.bound v vs hvs
  have := hns.min
  have := hns.max
  have := hns.le
  rw [hup] at h3 h
  intro new hall hfix
  by_cases hm : vs.upper < vs.maxBound
  · have hg := getLiteral_eff hp.1.1.1.wf hp.1.1.1.good.pos h
    obtain ⟨l0, hl0, hfl⟩ := (hp.1.2 v vs hvs).2 hm
    have hlog : ∀ l, cc.isTrue W.log l = true → cc.isTrue (new ++ W'.log) l = true := by
      obtain ⟨new', e⟩ := g.1
      intro l hl
      rw [e, ← List.append_assoc]
      induction new ++ new' with
      | nil => exact hl
      | cons e more ih => exact hv.isTrue ih
    have hEq : l = l0 := by
      cases hg with
      | low vs1 hv1 hlt => rw [hvs] at hv1; injection hv1 with hv1; subst hv1; omega
      | high vs1 hv1 _ hlt => rw [hvs] at hv1; injection hv1 with hv1; subst hv1; omega
      | old vs1 vs' l hv1 _ _ hm1 _ => rw [hvs] at hv1; injection hv1 with hv1; subst hv1; exact with_unique (hp.1.1.1.wf v vs hvs) hm1 hl0
      | new vs1 vs' l hv1 _ _ hm1 => rw [hvs] at hv1; injection hv1 with hv1; subst hv1; exact absurd hl0 (hm1 _)
    subst hEq
    exact he.isTrue _ _ hall (hlog _ hfl) (.inl hfix)
  · rw [h3]; omega

/-- The complement of a literal that is true if fixed. -/
theorem tr_push {reason : List Int} {x : Int} {P : World → Prop} (hx0 : x ≠ 0) (hP : ∀ W, P W → AllHold β W.log) :
    Tr β σ m (fun W => P W ∧ FixedTrue cc β x W.log) (pushReason cc reason (-x))
      (fun r W => P W ∧ ((∀ y ∈ r, ¬ litTrue β y) → (∀ y ∈ reason, ¬ litTrue β y) ∧ litTrue β x)) := by
  intro W a W' hx
  refine ⟨ext_pushReason.ext _ _ _ hx, ?_⟩
  rintro ⟨hi, hf⟩ hr
  unfold pushReason at hx
  simp only [smok] at hx
  obtain ⟨f, W1, ⟨rfl, rfl⟩, rfl, rfl⟩ := hx
  refine ⟨hi, fun hall => ?_⟩
  split_ifs at hall with h1
  · exact ⟨hall, hf [] (hP _ hi) (isFixed_neg ▸ h1)⟩
  · exact ⟨fun y hy => hall y (by simp [hy]), litTrue_neg' hx0 (hall (-x) (by simp))⟩

theorem tr_disjointReasons {a : Int} (he : EnvSound cc β) (hv : EnvMono cc) (hn : ∀ y ∈ F.1, Nested y) : ∀ {is : List DInterval} {reason : List Int},
    (∀ i ∈ is, i.var < F.1.length) →
    Tr β σ m (PD cc β σ F clit) (disjointReasons cc ty a is reason)
      (fun r W => PD cc β σ F clit W ∧ ((∀ x ∈ r, ¬ litTrue β x) → (∀ x ∈ reason, ¬ litTrue β x) ∧ ∀ i ∈ is, i.lo ty ≥ a → InF σ F i.var))
  | [], reason, _ => Tr.pure (fun _ h => ⟨h, fun h => ⟨h, fun i hi => by cases hi⟩⟩)
  | i :: is, reason, hlen => by
    have hlen' : ∀ i ∈ is, i.var < F.1.length := fun i hi => hlen i (List.mem_cons_of_mem _ hi)
    have hi0 := hlen i (List.mem_cons_self ..)
    unfold disjointReasons
    refine Tr.ite (fun hge => ?_) (fun hge => ?_)
    · refine Tr.getVarD (fun _ => by ext_auto) (fun vs h1 h2 => ?_)
      rw [h1, h2]
      refine Tr.bind (tr_lowLit he hv hn hi0) (fun l => Tr.assume (by ext_auto) (fun hl => ?_))
      refine Tr.bind (Tr.keepLog (S := FixedTrue cc β (-l)) (fun e log h => h.cons e log) (tr_uppLit he hv hn hi0)) (fun u => ?_)
      refine Tr.pre (P' := fun W => ((PD cc β σ F clit W ∧ FixedTrue cc β u W.log) ∧ FixedTrue cc β (-l) W.log) ∧ (u ≠ 0 ∧ (litTrue β u ↔ σ i.var ≤ upF F i.var))) ?_
        (fun W h => ⟨⟨h.1.1, h.2⟩, h.1.2⟩)
      refine Tr.assume (by ext_auto) (fun hu => ?_)
      have hp1 := tr_push (σ := σ) (m := m) (cc := cc) (β := β) (reason := reason) (x := -l) (P := fun W => PD cc β σ F clit W ∧ FixedTrue cc β u W.log) (by simpa using hl.1)
        (fun W h => h.1.1.1.1.good.posted)
      rw [neg_neg] at hp1
      refine Tr.bind hp1 (fun r1 => Tr.assume (by ext_auto) (fun hr1 => ?_))
      refine Tr.bind (tr_push (P := PD cc β σ F clit) hu.1 (fun W h => h.1.1.1.good.posted)) (fun r2 => Tr.assume (by ext_auto) (fun hr2 => ?_))
      refine (tr_disjointReasons he hv hn hlen').post (fun r W h => ⟨h.1, fun hall => ?_⟩)
      obtain ⟨h3, h4⟩ := h.2 hall
      obtain ⟨h5, h6⟩ := hr2 h3
      obtain ⟨h7, h8⟩ := hr1 h5
      refine ⟨h7, fun j hj hge' => ?_⟩
      rcases List.mem_cons.mp hj with rfl | hj
      · have h9 := (Clingcon.litTrue_neg hl.1).mp h8
        rw [hl.2] at h9
        have := hu.2.mp h6
        exact ⟨by omega, this⟩
      · exact h4 j hj hge'
    · refine (tr_disjointReasons he hv hn hlen').post (fun r W h => ⟨h.1, fun hall => ?_⟩)
      obtain ⟨h3, h4⟩ := h.2 hall
      refine ⟨h3, fun j hj hge' => ?_⟩
      rcases List.mem_cons.mp hj with rfl | hj
      · exact absurd hge' hge
      · exact h4 j hj hge'

theorem tr_disjointReason {a : Int} {is : List DInterval} (he : EnvSound cc β) (hv : EnvMono cc) (hn : ∀ y ∈ F.1, Nested y) (hc : clit ≠ 0) (hlen : ∀ i ∈ is, i.var < F.1.length) :
    Tr β σ m (PD cc β σ F clit) (disjointReason cc ty clit a is)
      (fun r W => PD cc β σ F clit W ∧ ((∀ x ∈ r, ¬ litTrue β x) → litTrue β clit ∧ ∀ i ∈ is, i.lo ty ≥ a → InF σ F i.var)) := by
  unfold disjointReason
  refine Tr.bind (Q := fun f W => PD cc β σ F clit W ∧ (f = true → litTrue β clit)) ?_ (fun f => Tr.assume (by ext_auto) (fun hf => ?_))
  · intro W a W' h
    obtain ⟨rfl, rfl⟩ := qFixed_iff.mp h
    exact ⟨Grow.refl _ _, fun h _ => ⟨h, fun hh => h.2 [] h.1.1.1.good.posted hh⟩⟩
  · refine (tr_disjointReasons he hv hn hlen).post (fun r W h => ⟨h.1, fun hall => ?_⟩)
    obtain ⟨h3, h4⟩ := h.2 hall
    refine ⟨?_, h4⟩
    cases f with
    | true => exact hf rfl
    | false => exact litTrue_neg' hc (h3 (-clit) (by simp))

/-! ### Hall intervals -/

theorem tr_disjointBound {reason : List Int} {i : DInterval} {a b : Int} (he : EnvSound cc β) (hv : EnvMono cc)
    (hl : Loaded F i) (ha : a ≤ i.lo ty) (hk : (∀ x ∈ reason, ¬ litTrue β x) → a ≤ place σ ty i → b < place σ ty i) :
    Tr β σ m (PD cc β σ F clit) (disjointBound cc ty reason i (b + 1)) (fun p W => PD cc β σ F clit W ∧ core p.2 = core i) := by
  obtain ⟨h1, h2, h3⟩ := hl
  unfold disjointBound
  refine Tr.getVarD (fun _ => by ext_auto) (fun vs e1 e2 => ?_)
  cases ty with
  | true =>
    rw [if_pos rfl]
    have ha : a ≤ i.left := ha
    have hk : (∀ x ∈ reason, ¬ litTrue β x) → a ≤ σ i.var → b < σ i.var := hk
    refine Tr.bindP (tr_lit he hv) (fun _ => by ext_auto) (fun l hl => ?_)
    refine Tr.bindP (tr_upd he hv) (fun _ => by ext_auto) (fun c hc => ?_)
    refine Tr.bind (tr_clauseD hv ?_) (fun ok => Tr.pure (fun W h => ⟨h, rfl⟩))
    by_contra hcon
    push Not at hcon
    have g1 := mt hl.2.mpr (hcon l (by simp))
    have g2 := hc.2.mp (litTrue_neg' hc.1 (hcon (-c) (by simp)))
    have g3 := hk (fun x hx => hcon x (by simp [hx])) (by omega)
    omega
  | false =>
    rw [if_neg (by simp)]
    have ha : a ≤ -i.right := ha
    have hk : (∀ x ∈ reason, ¬ litTrue β x) → a ≤ -(σ i.var + i.weight - 1) → b < -(σ i.var + i.weight - 1) := hk
    refine Tr.bindP (tr_lit he hv) (fun _ => by ext_auto) (fun l hl => ?_)
    refine Tr.bindP (tr_upd he hv) (fun _ => by ext_auto) (fun c hc => ?_)
    refine Tr.bind (tr_clauseD hv ?_) (fun ok => Tr.pure (fun W h => ⟨h, rfl⟩))
    by_contra hcon
    push Not at hcon
    have g1 := hl.2.mp (litTrue_neg' hl.1 (hcon (-l) (by simp)))
    have g2 := mt hc.2.mpr (hcon c (by simp))
    have g3 := hk (fun x hx => hcon x (by simp [hx])) (by omega)
    omega

theorem tr_hallLoop {reason : List Int} {a b : Int} (he : EnvSound cc β) (hv : EnvMono cc) : ∀ {js : List DInterval},
    (∀ j ∈ js, Loaded F j) → (∀ j ∈ js, (∀ x ∈ reason, ¬ litTrue β x) → a ≤ place σ ty j → b < place σ ty j) →
    Tr β σ m (PD cc β σ F clit) (hallLoop cc ty a b reason js) (fun p W => PD cc β σ F clit W ∧ p.2.map core = js.map core)
  | [], _, _ => Tr.pure (fun _ h => ⟨h, rfl⟩)
  | j :: js, hl, hk => by
    have ih := tr_hallLoop he hv (fun j hj => hl j (List.mem_cons_of_mem _ hj)) (fun j hj => hk j (List.mem_cons_of_mem _ hj)) (js := js)
    unfold hallLoop
    refine Tr.ite (fun hc => ?_) (fun hc => ?_)
    · refine Tr.bindP (tr_disjointBound he hv (hl j (List.mem_cons_self ..)) hc.1 (hk j (List.mem_cons_self ..))) (fun _ => by ext_auto) (fun p hp => ?_)
      refine Tr.ite (fun _ => Tr.pure (fun W h => ⟨h, ?_⟩)) (fun _ => ?_)
      · dsimp only; rw [List.map_cons, hp, List.map_cons]
      · refine Tr.bindP ih (fun _ => by ext_auto) (fun q hq => Tr.pure (fun W h => ⟨h, ?_⟩))
        dsimp only; rw [List.map_cons, hp, hq, List.map_cons]
    · refine Tr.bindP ih (fun _ => by ext_auto) (fun q hq => Tr.pure (fun W h => ⟨h, ?_⟩))
      dsimp only; rw [List.map_cons, hq, List.map_cons]

theorem tr_disjointHall {a b : Int} {pre post : List DInterval} (he : EnvSound cc β) (hv : EnvMono cc) (hn : ∀ y ∈ F.1, Nested y) (hc : clit ≠ 0)
    (hlen : ∀ i ∈ pre, i.var < F.1.length) (hok : OkI β σ F clit (pre ++ post)) (hb : ∀ i ∈ pre, i.hi ty ≤ b) (hfull : b ≤ a - 1 + wge ty a pre) :
    Tr β σ m (PD cc β σ F clit) (disjointHall cc ty clit a b pre post) (fun p W => PD cc β σ F clit W ∧ p.2.map core = post.map core) := by
  unfold disjointHall
  refine Tr.ite (fun _ => ?_) (fun _ => Tr.pure (fun _ h => ⟨h, rfl⟩))
  refine Tr.bindP (tr_disjointReason he hv hn hc hlen) (fun _ => by ext_auto) (fun r hr => ?_)
  refine tr_hallLoop he hv (fun j hj => hok.loaded j (by simp [hj])) (fun j hj hall hge => ?_)
  obtain ⟨ht, hin⟩ := hr hall
  exact hall' hok ht hb hin hfull hj hge

/-! ### The algorithm -/

theorem mem_core {is js : List DInterval} (h : js.map core = is.map core) {j : DInterval} (hj : j ∈ js) : ∃ i ∈ is, core i = core j := by
  have : core j ∈ is.map core := h ▸ List.mem_map_of_mem hj
  obtain ⟨i, hi, e⟩ := List.mem_map.mp this
  exact ⟨i, hi, e⟩

theorem lo_core {i j : DInterval} (h : core i = core j) : i.lo ty = j.lo ty := by
  have : (core i).lo ty = (core j).lo ty := by rw [h]
  exact this
theorem hi_core {i j : DInterval} (h : core i = core j) : i.hi ty = j.hi ty := by
  have : (core i).hi ty = (core j).hi ty := by rw [h]
  exact this
theorem var_core {i j : DInterval} (h : core i = core j) : i.var = j.var := by
  have : (core i).var = (core j).var := by rw [h]
  exact this

theorem tr_disjointInsert {pre post : List DInterval} {i : DInterval} (he : EnvSound cc β) (hv : EnvMono cc) (hn : ∀ y ∈ F.1, Nested y) (hc : clit ≠ 0)
    (hlen : ∀ j ∈ pre ++ [i], j.var < F.1.length) (hok : OkI β σ F clit (pre ++ [i] ++ post)) (hs : ∀ j ∈ pre, j.hi ty ≤ i.hi ty) (hui : UI ty pre) :
    Tr β σ m (PD cc β σ F clit) (disjointInsert cc ty clit pre i post)
      (fun p W => PD cc β σ F clit W ∧ (p.2.1.map core = (pre ++ [i]).map core ∧ p.2.2.map core = post.map core ∧ UI ty p.2.1)) := by
  have hw : ∀ j ∈ pre ++ [i], 1 ≤ j.weight := fun j hj => (hok.loaded j (List.mem_append_left _ hj)).weight
  have hwi := hw i (by simp)
  unfold disjointInsert
  extract_lets i1 r pre'
  obtain ⟨s1, s2, s3, s4, s5⟩ := scan_spec (ty := ty) (i := i1) (all := pre ++ [i]) (show 0 ≤ i.weight by omega) (r := r) rfl
    (fun j hj => by have := hw j (by simp [hj]); omega)
    (fun j hj => by
      have h1 := hui j hj
      rw [wge_append, wge_single]
      show j.u + (if i.lo ty ≥ j.lo ty then i.weight else 0) ≤ _
      omega)
  have hcore : pre'.map core = (pre ++ [i]).map core := by
    show (r.pre ++ [_]).map core = _
    rw [List.map_append, s1, List.map_append]
    rfl
  have hwge : ∀ a, wge ty a pre' = wge ty a (pre ++ [i]) := fun a => wge_congr hcore
  have hu : r.u ≤ i.lo ty - 1 + wge ty (i.lo ty) (pre ++ [i]) := by
    rw [wge_append, wge_single, if_pos (le_refl _)]
    have s3 : r.u ≤ i.lo ty + i.weight - 1 + wge ty (i.lo ty) pre := s3
    omega
  have hui' : UI ty pre' := by
    intro j hj
    rw [hwge]
    rcases List.mem_append.mp hj with hj | hj
    · exact s2 j hj
    · rw [List.mem_singleton] at hj
      subst hj
      exact hu
  have hlen' : ∀ j ∈ pre', j.var < F.1.length := by
    intro j hj
    obtain ⟨x, hx, e⟩ := mem_core hcore hj
    rw [← var_core e]; exact hlen x hx
  have hb' : ∀ j ∈ pre', j.hi ty ≤ i.hi ty := by
    intro j hj
    obtain ⟨x, hx, e⟩ := mem_core hcore hj
    rw [← hi_core e]
    rcases List.mem_append.mp hx with hx | hx
    · exact hs x hx
    · rw [List.mem_singleton] at hx; subst hx; exact le_refl _
  have hok' : OkI β σ F clit (pre' ++ post) := hok.perm (by rw [List.map_append (l₁ := pre'), hcore, ← List.map_append])
  have hokp : OkI β σ F clit pre' := hok'.sub (List.sublist_append_left ..)
  have hex : ∀ a, (∃ j ∈ pre ++ [i], j.lo ty = a) → ∃ j ∈ pre', j.lo ty ≥ a := by
    rintro a ⟨j, hj, rfl⟩
    obtain ⟨x, hx, e⟩ := mem_core hcore.symm hj
    exact ⟨x, hx, by rw [lo_core e]⟩
  have hconf : ∀ {a : Int} {reason : List Int}, (∃ j ∈ pre ++ [i], j.lo ty = a) → i.hi ty < a - 1 + wge ty a (pre ++ [i]) →
      ((∀ x ∈ reason, ¬ litTrue β x) → litTrue β clit ∧ ∀ i ∈ pre', i.lo ty ≥ a → InF σ F i.var) → ∃ l ∈ reason, litTrue β l := by
    intro a reason h1 h2 h3
    by_contra hcon
    push Not at hcon
    obtain ⟨ht, hin⟩ := h3 hcon
    have := crowded hokp ht hb' hin (hex a h1)
    rw [hwge] at this
    omega
  cases hcf : r.conflict with
  | some a =>
    dsimp only
    obtain ⟨⟨j, hj, hja⟩, h2⟩ := s4 a hcf
    refine Tr.bindP (tr_disjointReason he hv hn hc hlen') (fun _ => by ext_auto) (fun reason hr => ?_)
    exact Tr.bind (tr_clauseD hv (hconf ⟨j, by simp [hj], hja⟩ h2 hr)) (fun ok => Tr.pure (fun W h => ⟨h, hcore, rfl, hui'⟩))
  | none =>
    dsimp only
    refine Tr.ite (fun hgt => ?_) (fun hgt => ?_)
    · have hgt : r.u > i.hi ty := hgt
      refine Tr.bindP (tr_disjointReason he hv hn hc hlen') (fun _ => by ext_auto) (fun reason hr => ?_)
      exact Tr.bind (tr_clauseD hv (hconf ⟨i, by simp, rfl⟩ (show i.hi ty < i.lo ty - 1 + _ by omega) hr)) (fun ok => Tr.pure (fun W h => ⟨h, hcore, rfl, hui'⟩))
    · split
      · exact Tr.pure (fun W h => ⟨h, hcore, rfl, hui'⟩)
      · rename_i a hk
        refine Tr.bindP (tr_disjointHall he hv hn hc hlen' hok' hb' ?_) (fun _ => by ext_auto) (fun p hp => Tr.pure (fun W h => ⟨h, hcore, hp, hui'⟩))
        rw [hwge]
        have hfin : r.k = some a → i.hi ty ≤ a - 1 + wge ty a (pre ++ [i]) := by
          intro h1
          rcases s5 a h1 with h2 | ⟨-, h2⟩
          · cases h2
          · exact h2
        split_ifs at hk with heq
        · rcases minK_some hk with rfl | hk
          · have heq : r.u = i.hi ty := heq
            show i.hi ty ≤ i.lo ty - 1 + wge ty (i.lo ty) (pre ++ [i])
            omega
          · exact hfin hk
        · exact hfin hk

theorem tr_disjointGroup (he : EnvSound cc β) (hv : EnvMono cc) (hn : ∀ y ∈ F.1, Nested y) (hc : clit ≠ 0) : ∀ {n : Nat} {pre post : List DInterval},
    (∀ j ∈ pre ++ post, j.var < F.1.length) → OkI β σ F clit (pre ++ post) → (pre ++ post).Pairwise (fun a b => a.hi ty ≤ b.hi ty) → UI ty pre →
    Tr β σ m (PD cc β σ F clit) (disjointGroup cc ty clit n pre post) (fun p W => PD cc β σ F clit W ∧ p.2.map core = (pre ++ post).map core)
  | 0, pre, post, _, _, _, _ => Tr.pure (fun _ h => ⟨h, rfl⟩)
  | n + 1, pre, [], _, _, _, _ => Tr.pure (fun _ h => ⟨h, by simp⟩)
  | n + 1, pre, i :: post, hlen, hok, hs, hui => by
    have e0 : pre ++ i :: post = pre ++ [i] ++ post := by simp
    rw [e0] at hlen hok hs ⊢
    unfold disjointGroup
    have hs1 := List.pairwise_append.mp ((List.pairwise_append.mp hs).1)
    refine Tr.bindP (tr_disjointInsert he hv hn hc (fun j hj => hlen j (List.mem_append_left _ hj)) hok (fun j hj => hs1.2.2 j hj i (by simp)) hui)
      (fun _ => by ext_auto) (fun p hp => ?_)
    obtain ⟨h1, h2, h3⟩ := hp
    have hcore : (p.2.1 ++ p.2.2).map core = (pre ++ [i] ++ post).map core := by rw [List.map_append, h1, h2, ← List.map_append]
    refine Tr.ite (fun _ => Tr.pure (fun _ h => ⟨h, hcore⟩)) (fun _ => ?_)
    rw [← hcore]
    refine tr_disjointGroup he hv hn hc (fun j hj => ?_) (hok.perm (by rw [hcore])) ?_ h3
    · obtain ⟨x, hx, e⟩ := mem_core hcore hj
      rw [← var_core e]; exact hlen x hx
    · have h4 : ((pre ++ [i] ++ post).map core).Pairwise (fun a b => a.hi ty ≤ b.hi ty) := List.pairwise_map.mpr hs
      rw [← hcore] at h4
      exact (List.pairwise_map (f := core) (R := fun a b => a.hi ty ≤ b.hi ty)).mp h4

/-- The subsequences are sorted and consist of the intervals. -/
theorem groups_spec : ∀ {is cur : List DInterval} {mn : Int}, (is.reverse ++ cur).Pairwise (fun a b => a.hi ty ≤ b.hi ty) →
    (∀ g ∈ disjointGroups ty is cur mn, g.Pairwise (fun a b => a.hi ty ≤ b.hi ty)) ∧ (disjointGroups ty is cur mn).flatten.Perm (is ++ cur)
  | [], cur, mn, h => by
    refine ⟨fun g hg => ?_, ?_⟩
    · rw [disjointGroups, List.mem_singleton] at hg
      subst hg; exact h
    · simp [disjointGroups]
  | i :: is, cur, mn, h => by
    rw [List.reverse_cons, List.append_assoc] at h
    unfold disjointGroups
    split_ifs with hge
    · obtain ⟨h1, h2⟩ := groups_spec (is := is) (cur := i :: cur) (mn := min (i.lo ty) mn) h
      exact ⟨h1, h2.trans List.perm_middle⟩
    · have h3 := List.pairwise_append.mp h
      obtain ⟨h1, h2⟩ := groups_spec (is := is) (cur := [i]) (mn := i.lo ty) (h.sublist (List.Sublist.append (List.Sublist.refl _) (by simp)))
      refine ⟨fun g hg => ?_, ?_⟩
      · rcases List.mem_cons.mp hg with rfl | hg
        · exact (List.pairwise_cons.mp h3.2.1).2
        · exact h1 g hg
      · rw [List.flatten_cons]
        refine (List.Perm.append_left cur h2).trans ?_
        refine List.perm_append_comm.trans ?_
        simp only [List.append_assoc, List.singleton_append, List.cons_append]
        exact List.perm_middle

theorem tr_disjointRunGroups {force : Bool} (he : EnvSound cc β) (hv : EnvMono cc) (hn : ∀ y ∈ F.1, Nested y) (hc : clit ≠ 0) :
    ∀ {gs : List (List DInterval)} {done : List DInterval}, (∀ j ∈ gs.flatten, j.var < F.1.length) → OkI β σ F clit gs.flatten →
    (∀ g ∈ gs, g.Pairwise (fun a b => a.hi ty ≤ b.hi ty)) →
    Tr β σ m (PD cc β σ F clit) (disjointRunGroups cc ty clit force gs done) (fun p W => PD cc β σ F clit W ∧ (p.2.map core).Perm ((gs.flatten ++ done).map core))
  | [], done, _, _, _ => Tr.pure (fun _ h => ⟨h, by simp⟩)
  | g :: gs, done, hlen, hok, hs => by
    rw [List.flatten_cons] at hlen hok
    have ih : ∀ {done}, _ := fun {done} => tr_disjointRunGroups (force := force) (gs := gs) (done := done) he hv hn hc (fun j hj => hlen j (by simp only [List.mem_append]; exact .inr hj))
      (hok.sub (List.sublist_append_right ..)) (fun g' hg => hs g' (List.mem_cons_of_mem _ hg))
    unfold disjointRunGroups
    refine Tr.ite (fun _ => ?_) (fun _ => ?_)
    · refine Tr.bindP (tr_disjointGroup he hv hn hc (pre := []) (post := g) (fun j hj => hlen j (by simp only [List.mem_append]; exact .inl hj))
        (hok.sub (List.sublist_append_left ..)) (hs g (List.mem_cons_self ..)) (fun j hj => by cases hj)) (fun _ => by ext_auto) (fun p hp => ?_)
      rw [List.nil_append] at hp
      refine Tr.ite (fun _ => Tr.pure (fun W h => ⟨h, ?_⟩)) (fun _ => ih.post (fun q W h => ⟨h.1, h.2.trans ?_⟩))
      · dsimp only
        rw [List.flatten_cons, List.map_append, List.map_append, hp, List.map_append, List.map_append]
        refine List.Perm.append_right _ ((List.perm_append_comm).trans (List.Perm.append_left _ ?_))
        exact (List.Perm.flatten (List.reverse_perm gs)).map core
      · rw [List.flatten_cons]
        simp only [List.map_append, hp]
        rw [← List.append_assoc, List.append_assoc]
        exact (List.perm_append_comm_assoc ..).trans (by rw [List.append_assoc])
    · refine ih.post (fun q W h => ⟨h.1, h.2.trans ?_⟩)
      rw [List.flatten_cons]
      simp only [List.map_append]
      exact (List.perm_append_comm_assoc ..).trans (by rw [List.append_assoc])

theorem tr_disjointRun {force : Bool} {is : List DInterval} (he : EnvSound cc β) (hv : EnvMono cc) (hn : ∀ y ∈ F.1, Nested y) (hc : clit ≠ 0)
    (hlen : ∀ j ∈ is, j.var < F.1.length) (hok : OkI β σ F clit is) :
    Tr β σ m (PD cc β σ F clit) (disjointRun cc ty clit force is) (fun p W => PD cc β σ F clit W ∧ (p.2.map core).Perm (is.map core)) := by
  have h1 := cc.sort.perm (DInterval.hi ty) is
  have h2 := cc.sort.sorted (DInterval.hi ty) is
  unfold disjointRun
  split
  · rename_i heq
    have : cc.sort.fn (DInterval.hi ty) is = [] := List.reverse_eq_nil_iff.mp heq
    rw [this] at h1
    exact Tr.pure (fun W h => ⟨h, h1.map core⟩)
  · rename_i i rest heq
    have e : cc.sort.fn (DInterval.hi ty) is = rest.reverse ++ [i] := by rw [← List.reverse_reverse (cc.sort.fn _ _), heq, List.reverse_cons]
    rw [e] at h1 h2
    obtain ⟨h3, h4⟩ := groups_spec (mn := i.lo ty) h2
    have h5 : (disjointGroups ty rest [i] (i.lo ty)).flatten.Perm is := h4.trans ((List.Perm.append_right [i] (List.reverse_perm rest).symm).trans h1)
    refine (tr_disjointRunGroups he hv hn hc (fun j hj => hlen j (h5.mem_iff.mp hj)) (hok.perm (h5.map core)) h3).post (fun p W h => ⟨h.1, ?_⟩)
    rw [List.append_nil] at h
    exact h.2.trans (h5.map core)

theorem disjointLoad_eff : ∀ {is is' : List DInterval} {W W' : World}, disjointLoad is W = .ok (is', W') → W' = W ∧
    (∀ i ∈ is', i.var < (frame W).1.length ∧ i.left = loF (frame W) i.var ∧ i.right = upF (frame W) i.var + i.weight - 1) ∧
    is'.map (fun i => (i.weight, i.var)) = is.map (fun i => (i.weight, i.var))
  | [], is', W, W', h => by
    obtain ⟨rfl, rfl⟩ := pure_iff.mp h
    exact ⟨rfl, fun i hi => (by cases hi), rfl⟩
  | i :: is, is', W, W', h => by
    unfold disjointLoad at h
    obtain ⟨vs, W1, h1, h2⟩ := SM.bind_ok h
    obtain ⟨hv, rfl⟩ := getVar_iff.mp h1
    obtain ⟨js, W2, h3, h4⟩ := SM.bind_ok h2
    obtain ⟨rfl, h5, h6⟩ := disjointLoad_eff h3
    obtain ⟨rfl, rfl⟩ := pure_iff.mp h4
    have hf : (frame W').1[i.var]? = some vs.bounds := by unfold frame; dsimp only; rw [List.getElem?_map, hv]; rfl
    refine ⟨rfl, fun j hj => ?_, ?_⟩
    · rcases List.mem_cons.mp hj with rfl | hj
      · refine ⟨(List.getElem?_eq_some_iff.mp hf).1, ?_, ?_⟩
        · unfold loF; dsimp only; rw [hf]; rfl
        · unfold upF; dsimp only; rw [hf]; rfl
      · exact h5 j hj
    · rw [List.map_cons, h6, List.map_cons]

/-- Propagation of a disjoint constraint. -/
theorem disjointPropagate_sound {n : Nat} {es : List (Int × Nat)} {W W' : World} {r : Bool} (he : EnvSound cc β) (hv : EnvMono cc)
    (hc : clit ≠ 0) (hi : Inv β σ W) (hn : AllNested W) (hb : BoundLits cc W) (hf : FixedTrue cc β clit W.log) (hw : ∀ e ∈ es, 1 ≤ e.1)
    (hd : litTrue β clit → pairwiseDisjoint (es.map (fun e => (σ e.2, e.1))))
    (hk : ∀ c, W.book.cs[n]? = some c → (c.intervals.map (fun i => (i.weight, i.var))).Perm es)
    (h : disjointPropagate cc n clit W = .ok (r, W')) (hr : Asm β σ m W') : Inv β σ W' := by
  unfold disjointPropagate at h
  obtain ⟨c, W1, h1, h2⟩ := SM.bind_ok h
  obtain ⟨⟨hcs, -⟩, rfl⟩ := getCS_iff.mp h1
  obtain ⟨is, W2, h3, h4⟩ := SM.bind_ok h2
  obtain ⟨rfl, h5, h6⟩ := disjointLoad_eff h3
  have hp := hk c hcs
  rw [← h6] at hp
  have hok : OkI β σ (frame W2) clit is := by
    refine ⟨fun i hi' => ⟨(h5 i hi').2.1, (h5 i hi').2.2, hw (i.weight, i.var) (hp.mem_iff.mp (List.mem_map.mpr ⟨i, hi', rfl⟩))⟩, fun ht => ?_⟩
    have h7 : (es.map (fun e => (σ e.2, e.1))).Pairwise Apart := hd ht
    have h8 := (List.Perm.map (fun e : Int × Nat => (σ e.2, e.1)) hp)
    rw [List.map_map] at h8
    have h9 := (h8.pairwise_iff (fun h => Apart.symm h)).mpr h7
    exact List.pairwise_map.mp h9
  have hlen : ∀ i ∈ is, i.var < (frame W2).1.length := fun i hi' => (h5 i hi').1
  have hsame : ∀ {c : CState} {W3 W4 : World} {u : Unit} {n : Nat}, setCS n c W3 = .ok (u, W4) → W4.log = W3.log ∧ W4.factmap = W3.factmap ∧ (frame W4).1 = (frame W3).1 ∧
      (Inv β σ W3 → Inv β σ W4) ∧ (BoundLits cc W3 → BoundLits cc W4) := by
    intro c W3 W4 u n hx
    injection hx with hx
    obtain ⟨-, rfl⟩ := Prod.mk.inj hx
    exact ⟨rfl, rfl, rfl, fun h => ⟨⟨h.good.pos, h.good.table, h.good.bound, h.good.litmap, h.good.facts, h.good.posted⟩, h.wf⟩, fun h => h⟩
  obtain ⟨p, W3, h7, h8⟩ := SM.bind_ok h4
  obtain ⟨g1, q1⟩ := tr_disjointRun (m := m) (σ := σ) he hv hn hc hlen hok W2 p W3 h7
  obtain ⟨c2, W4, h9, h10⟩ := SM.bind_ok h8
  obtain ⟨-, rfl⟩ := getCS_iff.mp h9
  obtain ⟨u, W5, h11, h12⟩ := SM.bind_ok h10
  obtain ⟨b1, b2, b3, b4, b5⟩ := hsame h11
  have hg5 : ∀ {W6 : World}, Grow m W5 W6 → Asm β σ m W6 → Asm β σ m W4 := fun hg ha => by
    have : Grow m W4 W5 := ⟨⟨[], by rw [b1]; rfl⟩, fun _ => ⟨[], by rw [b2]; simp⟩⟩
    exact this.asm (hg.asm ha)
  by_cases hp1 : (!p.1) = true
  · rw [if_pos hp1] at h12
    obtain ⟨rfl, rfl⟩ := pure_iff.mp h12
    exact b4 (q1 ⟨⟨⟨hi, rfl⟩, hb⟩, hf⟩ (hg5 (Grow.refl ..) hr)).1.1.1.1
  · rw [if_neg hp1] at h12
    obtain ⟨q, W6, h13, h14⟩ := SM.bind_ok h12
    obtain ⟨c3, W7, h15, h16⟩ := SM.bind_ok h14
    obtain ⟨-, rfl⟩ := getCS_iff.mp h15
    obtain ⟨u', W8, h17, h18⟩ := SM.bind_ok h16
    obtain ⟨d1, d2, d3, d4, d5⟩ := hsame h17
    obtain ⟨rfl, rfl⟩ := pure_iff.mp h18
    have hg8 : Grow m W7 W' := ⟨⟨[], by rw [d1]; rfl⟩, fun _ => ⟨[], by rw [d2]; simp⟩⟩
    have ext : Grow m W5 W7 := ext_disjointRun.ext _ _ _ h13
    have hPD := (q1 ⟨⟨⟨hi, rfl⟩, hb⟩, hf⟩ (hg5 ext (hg8.asm hr)))
    have hfr : (frame W5).1 = (frame W2).1 := b3.trans (congrArg Prod.fst hPD.1.1.1.2)
    have hlo : loF (frame W5) = loF (frame W2) := by funext v; unfold loF; rw [hfr]
    have hup : upF (frame W5) = upF (frame W2) := by funext v; unfold upF; rw [hfr]
    have hok2 : OkI β σ (frame W5) clit p.2 := by
      have := hok.perm hPD.2
      exact ⟨fun i hi' => ⟨by rw [hlo]; exact (this.loaded i hi').left, by rw [hup]; exact (this.loaded i hi').right, (this.loaded i hi').weight⟩, this.apart⟩
    have hlen2 : ∀ i ∈ p.2, i.var < (frame W5).1.length := by
      intro i hi'
      rw [hfr]
      have : core i ∈ is.map core := hPD.2.mem_iff.mp (List.mem_map_of_mem hi')
      obtain ⟨j, hj, e⟩ := List.mem_map.mp this
      rw [← var_core e]; exact hlen j hj
    have hn5 : ∀ y ∈ (frame W5).1, Nested y := by rw [hfr]; exact hn
    obtain ⟨-, q2⟩ := tr_disjointRun (m := m) (σ := σ) he hv hn5 hc hlen2 hok2 W5 q W7 h13
    exact d4 (q2 ⟨⟨⟨b4 hPD.1.1.1.1, rfl⟩, b5 hPD.1.1.2⟩, by rw [b1]; exact hPD.1.2⟩ (hg8.asm hr)).1.1.1.1

end Clingcon
