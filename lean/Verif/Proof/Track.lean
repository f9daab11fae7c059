import Verif.Proof.Side
import Mathlib.Data.List.Perm.Basic
import Mathlib.Algebra.BigOperators.Group.List.Basic
import Mathlib.Tactic.Linarith
import Mathlib.Tactic.Ring

/-! What the states of constraints record about the bounds of variables. -/
namespace Clingcon

/-- Least value of a linear term for given bounds. -/
def lowSum (aL aU : Nat → Int) : CoVarVec → Int
  | [] => 0
  | (co, v) :: es => (if co > 0 then co * aL v else co * aU v) + lowSum aL aU es

/-- Greatest value of a linear term for given bounds. -/
def upSum (aL aU : Nat → Int) (es : CoVarVec) : Int := lowSum aU aL es

/-- The indices of the watches of a constraint on a variable. -/
def own (c : CState) (v : Nat) : List Int := (c.con.watches.filter (fun w => w.2 == v)).map (·.1)

/-- Sum of the indices with the given sign. -/
def signSum (pos : Bool) : List Int → Int
  | [] => 0
  | i :: is => (if decide (i > 0) = pos then i else 0) + signSum pos is

theorem signSum_perm {pos : Bool} {a b : List Int} (h : a.Perm b) : signSum pos a = signSum pos b := by
  induction h with
  | nil => rfl
  | cons x _ ih => simp only [signSum]; rw [ih]
  | swap x y l => simp only [signSum]; omega
  | trans _ _ ih1 ih2 => exact ih1.trans ih2

/-- Elements marked as waiting to be propagated are queued. -/
def MarkOK (c : CState) : Prop :=
  (∀ i, c.inTodoLower.getD i false = true → i ∈ c.todoLower) ∧ ∀ i, c.inTodoUpper.getD i false = true → i ∈ c.todoUpper

/-- The queue of changed elements is consistent with its marks and the sets of bounds of a distinct
constraint with its vector of bounds. -/
structure DistOK (c : CState) : Prop where
  mark : ∀ i, c.inDirty.getD i false = true → i ∈ c.dirty
  low : ∀ b j, (b, j) ∈ c.lowerSet ↔ ∃ q, c.assigned[j]? = some q ∧ q.1 = b
  upp : ∀ b j, (b, j) ∈ c.upperSet ↔ ∃ q, c.assigned[j]? = some q ∧ q.2 = b
  nodupL : c.lowerSet.Nodup
  nodupU : c.upperSet.Nodup
  todo : MarkOK c

/-- What does not change about the intervals of disjoint constraints. -/
def ivKey (i : DInterval) : Int × Nat := (i.weight, i.var)

/-- What the state of a constraint has recorded about the bounds `aL` and `aU`, if `d` is added to the upper
(`up`) or lower bound of a variable and the watches with indices `done` have been informed about it. -/
def Mid (up : Bool) (c : CState) (aL aU : Nat → Int) (d : Int) (done : List Int) : Prop :=
  match c.con with
  | .sum _ _ es => c.lower = lowSum aL aU es + signSum (!up) done * d ∧ c.upper = upSum aL aU es + signSum up done * d
  | .minimize _ es => c.lower = lowSum aL aU es + signSum (!up) done * d ∧ c.upper = upSum aL aU es + signSum up done * d
  | .distinct _ es => DistOK c ∧ (∀ i ∈ done, i.natAbs - 1 ∈ c.dirty) ∧ c.assigned.length = es.length ∧
      ∀ idx e, es[idx]? = some e → idx ∉ c.dirty → c.assigned[idx]? = some (lowSum aL aU e.1 + e.2, upSum aL aU e.1 + e.2)
  | .disjoint _ es => (c.intervals.map ivKey).Perm es
  | .nonlinear .. => True

/-- What the state of a constraint has recorded about the bounds of variables. -/
def Counted (c : CState) (aL aU : Nat → Int) : Prop := Mid false c aL aU 0 []

theorem counted_mid {c : CState} {aL aU : Nat → Int} {up : Bool} {d : Int} : Counted c aL aU ↔ Mid up c aL aU d [] := by
  unfold Counted Mid
  cases c.con <;> simp [signSum]

/-- States that differ in marks only. -/
structure SameC (c c' : CState) : Prop where
  con : c'.con = c.con
  lower : c'.lower = c.lower
  upper : c'.upper = c.upper
  assigned : c'.assigned = c.assigned
  dirty : c'.dirty = c.dirty
  inDirty : c'.inDirty = c.inDirty
  lowerSet : c'.lowerSet = c.lowerSet
  upperSet : c'.upperSet = c.upperSet
  ivs : (c'.intervals.map ivKey).Perm (c.intervals.map ivKey)
  marks : MarkOK c → MarkOK c'

theorem SameC.refl (c : CState) : SameC c c := ⟨rfl, rfl, rfl, rfl, rfl, rfl, rfl, rfl, .refl _, id⟩
theorem SameC.trans {a b c : CState} (h1 : SameC a b) (h2 : SameC b c) : SameC a c :=
  ⟨h2.con.trans h1.con, h2.lower.trans h1.lower, h2.upper.trans h1.upper, h2.assigned.trans h1.assigned, h2.dirty.trans h1.dirty,
    h2.inDirty.trans h1.inDirty, h2.lowerSet.trans h1.lowerSet, h2.upperSet.trans h1.upperSet, h2.ivs.trans h1.ivs, h2.marks ∘ h1.marks⟩

theorem Mid.same {c c' : CState} (h : SameC c c') {up : Bool} {aL aU : Nat → Int} {d : Int} {done : List Int} (hm : Mid up c aL aU d done) :
    Mid up c' aL aU d done := by
  unfold Mid at *
  rw [h.con]
  cases hc : c.con with
  | sum l r es => rw [hc] at hm; dsimp only at *; rw [h.lower, h.upper]; exact hm
  | minimize a es => rw [hc] at hm; dsimp only at *; rw [h.lower, h.upper]; exact hm
  | distinct l es =>
    rw [hc] at hm; dsimp only at *
    obtain ⟨h1, h2, h3, h4⟩ := hm
    refine ⟨⟨?_, ?_, ?_, ?_, ?_, h.marks h1.todo⟩, ?_, ?_, ?_⟩
    · rw [h.inDirty, h.dirty]; exact h1.mark
    · rw [h.lowerSet, h.assigned]; exact h1.low
    · rw [h.upperSet, h.assigned]; exact h1.upp
    · rw [h.lowerSet]; exact h1.nodupL
    · rw [h.upperSet]; exact h1.nodupU
    · rw [h.dirty]; exact h2
    · rw [h.assigned]; exact h3
    · rw [h.dirty, h.assigned]; exact h4
  | disjoint l es => rw [hc] at hm; exact h.ivs.trans hm
  | nonlinear l ca x y cb z r => trivial

theorem Counted.same {c c' : CState} (h : SameC c c') {aL aU : Nat → Int} (hm : Counted c aL aU) : Counted c' aL aU := Mid.same h hm

theorem markDirty_dirty {c : CState} {idx : Nat} (h : ∀ i, c.inDirty.getD i false = true → i ∈ c.dirty) :
    (∀ i, i ∈ (c.markDirty idx).dirty ↔ i ∈ c.dirty ∨ i = idx) ∧
    ∀ i, (c.markDirty idx).inDirty.getD i false = true → i ∈ (c.markDirty idx).dirty := by
  unfold CState.markDirty
  split_ifs with hc
  · refine ⟨fun i => ⟨Or.inl, ?_⟩, h⟩
    rintro (hi | rfl)
    · exact hi
    · exact h _ hc
  · refine ⟨fun i => by simp, fun i hi => ?_⟩
    simp only [List.mem_append, List.mem_singleton]
    by_cases hii : i = idx
    · exact Or.inr hii
    · left
      apply h
      simp only [List.getD_eq_getElem?_getD, List.getElem?_set] at hi ⊢
      rw [if_neg (fun e => hii e.symm)] at hi
      exact hi

theorem markDirty_same {c : CState} {idx : Nat} : (c.markDirty idx).con = c.con ∧ (c.markDirty idx).assigned = c.assigned ∧
    (c.markDirty idx).lowerSet = c.lowerSet ∧ (c.markDirty idx).upperSet = c.upperSet ∧ (c.markDirty idx).inactive = c.inactive ∧
    (c.markDirty idx).alive = c.alive ∧ (c.markDirty idx).todo = c.todo := by
  unfold CState.markDirty; split_ifs <;> exact ⟨rfl, rfl, rfl, rfl, rfl, rfl, rfl⟩

theorem markDirty_marks {c : CState} {idx : Nat} (h : MarkOK c) : MarkOK (c.markDirty idx) := by
  unfold CState.markDirty; split_ifs <;> exact h

theorem foldl_unset {xs : List Nat} : ∀ {v : List Bool} {i : Nat}, (xs.foldl (fun v j => v.set j false) v).getD i false = true → v.getD i false = true ∧ i ∉ xs := by
  induction xs with
  | nil => exact fun h => ⟨h, List.not_mem_nil⟩
  | cons x xs ih =>
    intro v i h
    obtain ⟨h1, h2⟩ := ih h
    rw [List.getD_eq_getElem?_getD, List.getElem?_set] at h1
    by_cases e : x = i
    · rw [if_pos e] at h1
      split at h1 <;> cases h1
    · rw [if_neg e, ← List.getD_eq_getElem?_getD] at h1
      exact ⟨h1, by rw [List.mem_cons, not_or]; exact ⟨fun a => e a.symm, h2⟩⟩

theorem getD_mark {v : List Bool} {i idx : Nat} (h : (v.set idx true).getD i false = true) : v.getD i false = true ∨ i = idx := by
  by_cases e : idx = i
  · exact .inr e.symm
  · rw [List.getD_eq_getElem?_getD, List.getElem?_set, if_neg e, ← List.getD_eq_getElem?_getD] at h
    exact .inl h

theorem clearTodo_same {c : CState} : SameC c c.clearTodo := ⟨rfl, rfl, rfl, rfl, rfl, rfl, rfl, rfl, .refl _, fun h =>
  ⟨fun i hi => absurd (h.1 i (foldl_unset hi).1) (foldl_unset hi).2, fun i hi => absurd (h.2 i (foldl_unset hi).1) (foldl_unset hi).2⟩⟩
theorem markTodoElem_same {c : CState} {s : Int} {idx : Nat} : SameC c (c.markTodoElem s idx) := by
  unfold CState.markTodoElem
  split_ifs
  · exact SameC.refl c
  · exact ⟨rfl, rfl, rfl, rfl, rfl, rfl, rfl, rfl, .refl _, fun h => ⟨fun i hi => List.mem_append.mpr ((getD_mark hi).imp (h.1 i) List.mem_singleton.mpr), h.2⟩⟩
  · exact SameC.refl c
  · exact ⟨rfl, rfl, rfl, rfl, rfl, rfl, rfl, rfl, .refl _, fun h => ⟨h.1, fun i hi => List.mem_append.mpr ((getD_mark hi).imp (h.2 i) List.mem_singleton.mpr)⟩⟩
theorem markTodoElem_flags {c : CState} {s : Int} {idx : Nat} : (c.markTodoElem s idx).inactive = c.inactive ∧
    (c.markTodoElem s idx).alive = c.alive ∧ (c.markTodoElem s idx).todo = c.todo := by
  unfold CState.markTodoElem; split_ifs <;> exact ⟨rfl, rfl, rfl⟩

/-- The constraint and its marks are kept by updates. -/
structure SameF (c c' : CState) : Prop where
  con : c'.con = c.con
  inactive : c'.inactive = c.inactive
  alive : c'.alive = c.alive

theorem SameF.refl (c : CState) : SameF c c := ⟨rfl, rfl, rfl⟩
theorem SameF.trans {a b c : CState} (h1 : SameF a b) (h2 : SameF b c) : SameF a c :=
  ⟨h2.con.trans h1.con, h2.inactive.trans h1.inactive, h2.alive.trans h1.alive⟩
theorem SameF.removableAt {c c' : CState} (h : SameF c c') (k : Nat) : c'.removableAt k = c.removableAt k := by
  unfold CState.removableAt CState.markedInactive; rw [h.inactive]
theorem SameF.own {c c' : CState} (h : SameF c c') (v : Nat) : own c' v = own c v := by
  unfold Clingcon.own; rw [h.con]

theorem update_flags {c : CState} {i d : Int} {r : Bool × CState} (h : c.update i d = .ok r) : SameF c r.2 := by
  have hs : ∀ {r : Bool × CState}, c.updateSum i d = .ok r → SameF c r.2 := by
    intro r h
    unfold CState.updateSum at h
    split_ifs at h <;> injection h with h <;> subst h <;> exact ⟨rfl, rfl, rfl⟩
  unfold CState.update at h
  cases hc : c.con with
  | sum l r' es => rw [hc] at h; exact hs h
  | minimize a es => rw [hc] at h; exact hs h
  | distinct l es =>
    rw [hc] at h; injection h with h; subst h
    obtain ⟨h1, -, -, -, h2, h3, -⟩ := @markDirty_same c (i.natAbs - 1)
    obtain ⟨g1, g2, -⟩ := @markTodoElem_flags (c.markDirty (i.natAbs - 1)) i (i.natAbs - 1)
    exact ⟨markTodoElem_same.con.trans h1, g1.trans h2, g2.trans h3⟩
  | disjoint l es => rw [hc] at h; injection h with h; subst h; exact SameF.refl _
  | nonlinear l ca x y cb z r => rw [hc] at h; injection h with h; subst h; exact SameF.refl _

theorem undo_flags {c : CState} {i d : Int} : SameF c (c.undo i d) := by
  have hs : SameF c (c.undoSum i d) := by unfold CState.undoSum; split_ifs <;> exact ⟨rfl, rfl, rfl⟩
  unfold CState.undo
  cases hc : c.con with
  | sum l r' es => exact hs
  | minimize a es => exact hs
  | distinct l es =>
    obtain ⟨h1, -, -, -, h2, h3, -⟩ := @markDirty_same c (i.natAbs - 1)
    exact ⟨h1, h2, h3⟩
  | disjoint l es => exact ⟨hc.symm, rfl, rfl⟩
  | nonlinear l ca x y cb z r => exact SameF.refl _

theorem dist_mid {c c' : CState} {es : List (CoVarVec × Int)} {aL aU : Nat → Int} {i : Int} {done : List Int}
    (hs : SameC (c.markDirty (i.natAbs - 1)) c')
    (h : DistOK c ∧ (∀ i ∈ done, i.natAbs - 1 ∈ c.dirty) ∧ c.assigned.length = es.length ∧
      ∀ idx e, es[idx]? = some e → idx ∉ c.dirty → c.assigned[idx]? = some (lowSum aL aU e.1 + e.2, upSum aL aU e.1 + e.2)) :
    DistOK c' ∧ (∀ j ∈ i :: done, j.natAbs - 1 ∈ c'.dirty) ∧ c'.assigned.length = es.length ∧
      ∀ idx e, es[idx]? = some e → idx ∉ c'.dirty → c'.assigned[idx]? = some (lowSum aL aU e.1 + e.2, upSum aL aU e.1 + e.2) := by
  obtain ⟨h1, h2, h3, h4⟩ := h
  obtain ⟨d1, d2⟩ := markDirty_dirty (idx := i.natAbs - 1) h1.mark
  obtain ⟨-, e1, e2, e3, -, -, -⟩ := @markDirty_same c (i.natAbs - 1)
  refine ⟨⟨?_, ?_, ?_, ?_, ?_, hs.marks (markDirty_marks h1.todo)⟩, ?_, ?_, ?_⟩
  · rw [hs.inDirty, hs.dirty]; exact d2
  · rw [hs.lowerSet, hs.assigned, e1, e2]; exact h1.low
  · rw [hs.upperSet, hs.assigned, e1, e3]; exact h1.upp
  · rw [hs.lowerSet, e2]; exact h1.nodupL
  · rw [hs.upperSet, e3]; exact h1.nodupU
  · intro j hj
    rw [hs.dirty, d1]
    rcases List.mem_cons.mp hj with rfl | hj
    · exact Or.inr rfl
    · exact Or.inl (h2 j hj)
  · rw [hs.assigned, e1]; exact h3
  · intro idx e he hd
    rw [hs.dirty, d1] at hd
    rw [hs.assigned, e1]
    exact h4 idx e he (fun hc => hd (Or.inl hc))

theorem sum_mid_step {lower upper L U i d : Int} {up : Bool} {done : List Int}
    (h : lower = L + signSum (!up) done * d ∧ upper = U + signSum up done * d) :
    (if decide (i > 0) = up then (lower = L + signSum (!up) (i :: done) * d ∧ upper + i * d = U + signSum up (i :: done) * d)
     else (lower + i * d = L + signSum (!up) (i :: done) * d ∧ upper = U + signSum up (i :: done) * d)) := by
  obtain ⟨h1, h2⟩ := h
  simp only [signSum]
  split_ifs with a b c <;> constructor <;> (try rw [h1]) <;> (try rw [h2]) <;> first | (exfalso; cases up <;> simp_all; done) | ring

theorem mid_update {up : Bool} {c : CState} {aL aU : Nat → Int} {d i : Int} {done : List Int} {r : Bool × CState}
    (hd : if up then d < 0 else 0 < d) (hm : Mid up c aL aU d done) (h : c.update i d = .ok r) : Mid up r.2 aL aU d (i :: done) := by
  have hs : ∀ {es : CoVarVec} {r : Bool × CState}, c.updateSum i d = .ok r →
      (c.lower = lowSum aL aU es + signSum (!up) done * d ∧ c.upper = upSum aL aU es + signSum up done * d) →
      (r.2.lower = lowSum aL aU es + signSum (!up) (i :: done) * d ∧ r.2.upper = upSum aL aU es + signSum up (i :: done) * d) := by
    intro es r h hm
    have key := sum_mid_step (i := i) hm
    unfold CState.updateSum at h
    split_ifs at h with h1 h2
    · injection h with h; subst h
      have hii : decide (i > 0) = up := by
        cases up with
        | true => simp only [if_true] at hd; simp only [decide_eq_true_eq]; nlinarith
        | false => simp only [Bool.false_eq_true, if_false] at hd; simp only [decide_eq_false_iff_not]; nlinarith
      rw [if_pos hii] at key
      exact key
    · injection h with h; subst h
      have hii : ¬ decide (i > 0) = up := by
        cases up with
        | true => simp only [if_true] at hd; simp only [decide_eq_true_eq]; intro hi; have := mul_neg_of_pos_of_neg hi hd; omega
        | false =>
          simp only [Bool.false_eq_true, if_false] at hd
          simp only [decide_eq_false_iff_not, not_not]
          by_contra hi
          have : i * d ≤ 0 := mul_nonpos_of_nonpos_of_nonneg (by omega) (by omega)
          omega
      rw [if_neg hii] at key
      exact key
  have hf := update_flags h
  unfold Mid at *
  rw [hf.con]
  unfold CState.update at h
  cases hc : c.con with
  | sum l r' es => rw [hc] at h hm; exact hs h hm
  | minimize a es => rw [hc] at h hm; exact hs h hm
  | distinct l es =>
    rw [hc] at h hm; injection h with h; subst h
    exact dist_mid markTodoElem_same hm
  | disjoint l es => rw [hc] at h hm; injection h with h; subst h; exact hm
  | nonlinear l ca x y cb z r => trivial

theorem mid_undo {up : Bool} {c : CState} {aL aU : Nat → Int} {d i : Int} {done : List Int}
    (hd : if up then d < 0 else 0 < d) (hm : Mid up c aL aU (-d) done) : Mid up (c.undo i d) aL aU (-d) (i :: done) := by
  have hs : ∀ {es : CoVarVec},
      (c.lower = lowSum aL aU es + signSum (!up) done * (-d) ∧ c.upper = upSum aL aU es + signSum up done * (-d)) →
      ((c.undoSum i d).lower = lowSum aL aU es + signSum (!up) (i :: done) * (-d) ∧ (c.undoSum i d).upper = upSum aL aU es + signSum up (i :: done) * (-d)) := by
    intro es hm
    have key := sum_mid_step (i := i) hm
    unfold CState.undoSum
    by_cases h1 : decide (i > 0) = up
    · rw [if_pos h1] at key
      have h2 : ¬ i * d > 0 := by
        cases up with
        | true => simp only [if_true] at hd; simp only [decide_eq_true_eq] at h1; have := mul_neg_of_pos_of_neg h1 hd; omega
        | false =>
          simp only [Bool.false_eq_true, if_false] at hd
          simp only [decide_eq_false_iff_not] at h1
          have : i * d ≤ 0 := mul_nonpos_of_nonpos_of_nonneg (by omega) (by omega)
          omega
      rw [if_neg h2]
      dsimp only; refine ⟨key.1, ?_⟩; rw [← key.2]; ring
    · rw [if_neg h1] at key
      by_cases h2 : i * d > 0
      · rw [if_pos h2]; dsimp only; refine ⟨?_, key.2⟩; rw [← key.1]; ring
      · rw [if_neg h2]
        have hz : i = 0 := by
          cases up with
          | true =>
            simp only [if_true] at hd
            simp only [decide_eq_true_eq] at h1
            by_contra hi
            have : 0 < i * d := mul_pos_of_neg_of_neg (by omega) hd
            omega
          | false =>
            simp only [Bool.false_eq_true, if_false] at hd
            simp only [decide_eq_false_iff_not, not_not] at h1
            have : 0 < i * d := mul_pos h1 hd
            omega
        subst hz
        simp only [zero_mul, add_zero, sub_zero] at key ⊢
        exact key
  have hf := @undo_flags c i d
  unfold Mid at *
  rw [hf.con]
  unfold CState.undo
  cases hc : c.con with
  | sum l r' es => rw [hc] at hm; exact hs hm
  | minimize a es => rw [hc] at hm; exact hs hm
  | distinct l es =>
    rw [hc] at hm
    exact dist_mid clearTodo_same hm
  | disjoint l es => rw [hc] at hm; exact hm
  | nonlinear l ca x y cb z r => trivial

/-! When all watches have been informed, the bound is accounted for. -/

theorem lowSum_update {aL aU : Nat → Int} {v : Nat} {d : Int} : ∀ {es : CoVarVec},
    lowSum (Function.update aL v (aL v + d)) aU es = lowSum aL aU es + signSum true ((es.filter (fun w => w.2 == v)).map (·.1)) * d ∧
    lowSum aL (Function.update aU v (aU v + d)) es = lowSum aL aU es + signSum false ((es.filter (fun w => w.2 == v)).map (·.1)) * d
  | [] => by simp [lowSum, signSum]
  | (co, w) :: es => by
    obtain ⟨h1, h2⟩ := @lowSum_update aL aU v d es
    by_cases hw : w = v
    · subst hw
      rw [List.filter_cons_of_pos (by simp)]
      simp only [lowSum, List.map_cons, signSum, h1, h2, Function.update_self]
      constructor
      · by_cases hc : co > 0 <;> simp [hc] <;> ring
      · by_cases hc : co > 0 <;> simp [hc] <;> ring
    · rw [List.filter_cons_of_neg (by simp [hw])]
      simp only [lowSum, h1, h2, Function.update_of_ne hw]
      constructor <;> omega

theorem lowSum_congr {aL aU aL' aU' : Nat → Int} : ∀ {es : CoVarVec}, (∀ w ∈ es, aL w.2 = aL' w.2 ∧ aU w.2 = aU' w.2) →
    lowSum aL aU es = lowSum aL' aU' es
  | [], _ => rfl
  | (co, w) :: es, h => by
    have h1 := h (co, w) (List.mem_cons_self ..)
    simp only at h1
    simp only [lowSum]
    rw [h1.1, h1.2, lowSum_congr (fun w hw => h w (List.mem_cons_of_mem _ hw))]

theorem distinctWatches_mem {v : Nat} : ∀ {es : List (CoVarVec × Int)} {k j : Nat} {e : CoVarVec × Int} {co : Int},
    es[j]? = some e → (co, v) ∈ e.1 → ∃ i, (i, v) ∈ distinctWatches k es ∧ i.natAbs - 1 = k + j
  | [], _, _, _, _, h, _ => by cases h
  | (e', f) :: es, k, 0, e, co, h, hm => by
    injection h with h; subst h
    refine ⟨if co > 0 then (k : Int) + 1 else -(k : Int) - 1, ?_, ?_⟩
    · simp only [distinctWatches]
      exact List.mem_append_left _ (List.mem_map.mpr ⟨(co, v), hm, rfl⟩)
    · split_ifs <;> omega
  | (e', f) :: es, k, j + 1, e, co, h, hm => by
    obtain ⟨i, h1, h2⟩ := @distinctWatches_mem v es (k + 1) j e co h hm
    exact ⟨i, by simp only [distinctWatches]; exact List.mem_append_right _ h1, by omega⟩

theorem mid_done {up : Bool} {c : CState} {aL aU : Nat → Int} {v : Nat} {d : Int} {done : List Int} (hm : Mid up c aL aU d done)
    (hp : done.Perm (own c v)) :
    Counted c (if up then aL else Function.update aL v (aL v + d)) (if up then Function.update aU v (aU v + d) else aU) := by
  have hs : ∀ {es : CoVarVec}, own c v = (es.filter (fun w => w.2 == v)).map (·.1) →
      (c.lower = lowSum aL aU es + signSum (!up) done * d ∧ c.upper = upSum aL aU es + signSum up done * d) →
      c.lower = lowSum (if up then aL else Function.update aL v (aL v + d)) (if up then Function.update aU v (aU v + d) else aU) es +
          signSum true [] * 0 ∧
        c.upper = upSum (if up then aL else Function.update aL v (aL v + d)) (if up then Function.update aU v (aU v + d) else aU) es +
          signSum false [] * 0 := by
    intro es ho hm
    rw [ho] at hp
    rw [signSum_perm hp, signSum_perm hp] at hm
    unfold upSum at *
    obtain ⟨l1, l2⟩ := @lowSum_update aL aU v d es
    obtain ⟨l3, l4⟩ := @lowSum_update aU aL v d es
    cases up with
    | true =>
      simp only [if_true, Bool.not_true] at *
      rw [l2, l3]; simp only [signSum]; omega
    | false =>
      simp only [Bool.false_eq_true, if_false, Bool.not_false] at *
      rw [l1, l4]; simp only [signSum]; omega
  unfold Counted
  unfold Mid at *
  cases hc : c.con with
  | sum l r es =>
    rw [hc] at hm
    exact hs (by unfold own; rw [hc]; rfl) hm
  | minimize a es =>
    rw [hc] at hm
    exact hs (by unfold own; rw [hc]; rfl) hm
  | distinct l es =>
    rw [hc] at hm
    dsimp only at *
    obtain ⟨h1, h2, h3, h4⟩ := hm
    refine ⟨h1, by simp, h3, ?_⟩
    intro idx e he hd
    rw [h4 idx e he hd]
    have hnot : ∀ w ∈ e.1, w.2 ≠ v := by
      rintro ⟨co, w⟩ hw rfl
      obtain ⟨i, hi, hii⟩ := distinctWatches_mem (k := 0) he hw
      have : i ∈ own c w := by
        unfold own; rw [hc]
        exact List.mem_map.mpr ⟨(i, w), List.mem_filter.mpr ⟨hi, by simp⟩, rfl⟩
      have := h2 i (hp.symm.subset this)
      rw [hii] at this
      simp only [zero_add] at this
      exact hd this
    have hcg : ∀ (a : Nat → Int) (x : Int), ∀ w ∈ e.1, Function.update a v x w.2 = a w.2 := fun a x w hw => Function.update_of_ne (hnot w hw) _ _
    unfold upSum
    cases up with
    | true =>
      simp only [if_true]
      rw [lowSum_congr (aL' := aL) (aU' := aU) (fun w hw => ⟨rfl, hcg _ _ w hw⟩),
        lowSum_congr (aL' := aU) (aU' := aL) (fun w hw => ⟨hcg _ _ w hw, rfl⟩)]
    | false =>
      simp only [Bool.false_eq_true, if_false]
      rw [lowSum_congr (aL' := aL) (aU' := aU) (fun w hw => ⟨hcg _ _ w hw, rfl⟩),
        lowSum_congr (aL' := aU) (aU' := aL) (fun w hw => ⟨rfl, hcg _ _ w hw⟩)]
  | disjoint l es => rw [hc] at hm; exact hm
  | nonlinear l ca x y cb z r => trivial

end Clingcon
