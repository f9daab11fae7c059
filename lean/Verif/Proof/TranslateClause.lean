import Verif.Proof.Translate

/-! The translation of linear constraints to clauses. -/
set_option linter.unusedSimpArgs false
namespace Clingcon
open Spec

variable {β : Nat → Bool} {σ : Nat → Int} {F : List VarState × Book} {m : Bool} {α : Type}

theorem Asm.ev {W : World} {e : SEv} (h : Asm β σ true W) (he : e ∈ W.log) : evHolds β e := (h.2 rfl).1 e he

theorem tr_addWeight {cc : CC} {lit b : Int} {ws : List (Int × Int)} (he : EnvSound cc β) (h0 : cc.level = 0)
    (hp : m = false → litTrue β lit → weightSum β ws ≤ b) :
    Tr β σ m (InvF β σ F) (addWeight cc lit ws b 1)
      (fun r W => InvF β σ F W ∧ r = true ∧ (litTrue β lit → weightSum β ws ≤ b)) := by
  unfold addWeight
  intro W r W' h
  obtain ⟨t, W1, h1, h⟩ := bind_iff.mp h
  obtain ⟨rfl, rfl⟩ := qTrue_iff.mp h1
  obtain ⟨f, W2, h2, h⟩ := bind_iff.mp h
  obtain ⟨rfl, rfl⟩ := qFalse_iff.mp h2
  rw [if_neg (by simp)] at h
  split at h
  · rename_i hc
    obtain ⟨rfl, rfl⟩ := pure_iff.mp h
    refine ⟨Grow.refl _ _, fun hi ha => ⟨hi, rfl, fun hl => ?_⟩⟩
    simp only [Bool.and_eq_true] at hc
    exact absurd hl (he.isFalse _ _ hi.1.good.posted hc.1.2 (Or.inr h0))
  · obtain ⟨u, W3, h3, h⟩ := bind_iff.mp h
    have h3 := modify_iff.mp h3
    subst h3
    obtain ⟨rfl, rfl⟩ := pure_iff.mp h
    refine ⟨Grow.ev rfl rfl, fun hi ha => ?_⟩
    have key : litTrue β lit → weightSum β ws ≤ b := by
      cases m with
      | false => exact hp rfl
      | true =>
        have := ha.ev (e := .weight lit ws b 1) (by simp)
        exact this.1 (by decide)
    exact ⟨hi.log ⟨fun _ => key, fun hh => absurd hh (by decide)⟩, rfl, key⟩

theorem ext_addWeight {cc : CC} {lit b t : Int} {ws : List (Int × Int)} : Ext' m (addWeight cc lit ws b t) := by
  unfold addWeight
  refine Ext'.bind ext_qTrue (fun _ => Ext'.bind ext_qFalse (fun _ => ?_))
  split
  · exact Ext'.pure
  split
  · exact Ext'.pure
  exact Ext'.bind (Ext'.modify (fun _ => Grow.ev rfl rfl)) (fun _ => Ext'.pure)

theorem tr_weightTranslate {cc : CC} {lit slack : Int} {es : CoVarVec} (he : EnvSound cc β) (h0 : cc.level = 0)
    (hn : ∀ e ∈ es, e.1 ≠ 0) (hw : Within (loF F) (upF F) σ es) (hp : m = false → litTrue β lit → devSum (loF F) (upF F) σ es ≤ slack) :
    Tr β σ m (InvF β σ F) (weightTranslate cc lit slack es)
      (fun r W => InvF β σ F W ∧ r.1 = true ∧ (r.2 = true → litTrue β lit → devSum (loF F) (upF F) σ es ≤ slack)) := by
  unfold weightTranslate
  refine Tr.bindP (tr_weightLits he.tt hn hw) (fun _ => ?_) (fun ws hws => ?_)
  · split
    · exact Ext'.bind ext_addWeight (fun _ => Ext'.pure)
    · exact Ext'.pure
  refine Tr.ite (fun _ => ?_) (fun _ => Tr.pure (fun _ h => ⟨h, rfl, fun h => by cases h⟩))
  refine Tr.bindP (tr_addWeight he h0 (fun hm hl => hws.iff.mpr (hp hm hl))) (fun _ => Ext'.pure) (fun r hr => ?_)
  exact Tr.pure (fun _ h => ⟨h, hr.1, fun _ hl => hws.iff.mp (hr.2 hl)⟩)

/-! ### Splitting on the values of an element -/

theorem split_pos {co s lo hi D Rg L U vl vu : Int} (hco : 0 < co) (h1 : lo ≤ s) (h2 : s ≤ hi) (hD : 0 ≤ D) (hR : D ≤ Rg)
    (hL : 0 ≤ L) (hU : U = L - co * (hi - lo) - Rg) (hU0 : U < 0)
    (hvl : vl = max (lo - 1) (floordiv (U + co * hi) co)) (hvu : vu = min (hi - 1) (floordiv (L + co * lo) co)) :
    vl ≤ vu ∧ ((∀ t : Nat, (t : Int) ≤ vu - vl → s ≤ vu - t ∨ D ≤ L - co * (vu - lo + 1) + co * t) ↔ co * (s - lo) + D ≤ L) := by
  have a1 := (floordiv_bounds (U + co * hi) co (by omega)).1 hco
  have a2 := (floordiv_bounds (L + co * lo) co (by omega)).1 hco
  set p := floordiv (U + co * hi) co
  set q := floordiv (L + co * lo) co
  have hp : p ≤ hi - 1 := by
    by_contra h
    have : hi ≤ p := by omega
    nlinarith [mul_le_mul_of_nonneg_right this (le_of_lt hco)]
  have hq : lo ≤ q := by
    by_contra h
    have : q + 1 ≤ lo := by omega
    nlinarith [mul_le_mul_of_nonneg_right this (le_of_lt hco)]
  have hpq : p ≤ q := by
    by_contra h
    have : q + 1 ≤ p := by omega
    have := mul_le_mul_of_nonneg_right this (le_of_lt hco)
    have : U + co * hi ≤ L + co * lo := by rw [hU]; nlinarith
    linarith
  have hvv : vl ≤ vu := by omega
  refine ⟨hvv, fun h => ?_, fun h t ht => ?_⟩
  · by_cases c1 : s ≤ vl
    · have : s ≤ p := by omega
      have := mul_le_mul_of_nonneg_right this (le_of_lt hco)
      rw [hU] at a1
      nlinarith
    · by_cases c2 : s - 1 ≤ vu
      · have := h (vu - (s - 1)).toNat (by omega)
        have e : ((vu - (s - 1)).toNat : Int) = vu - (s - 1) := by omega
        rw [e] at this
        rcases this with this | this
        · omega
        · linarith
      · have := h 0 (by simp; omega)
        simp only [Nat.cast_zero, sub_zero, mul_zero, add_zero] at this
        rcases this with this | this
        · omega
        · have hvq : vu = q := by omega
          rw [hvq] at this
          have e : (q + 1) * co = co * (q - lo + 1) + co * lo := by ring
          linarith [a2.2]
  · by_cases c : s ≤ vu - t
    · exact Or.inl c
    · right
      have : vu - t + 1 ≤ s := by omega
      have := mul_le_mul_of_nonneg_left this (le_of_lt hco)
      nlinarith

theorem split_neg {co s lo hi D Rg L U vl vu : Int} (hco : co < 0) (h1 : lo ≤ s) (h2 : s ≤ hi) (hD : 0 ≤ D) (hR : D ≤ Rg)
    (hL : 0 ≤ L) (hU : U = L - -co * (hi - lo) - Rg) (hU0 : U < 0)
    (hvl : vl = max lo (-floordiv (L + co * hi) (-co) - 1)) (hvu : vu = min hi (-floordiv (U + co * lo) (-co) - 1)) :
    vl ≤ vu ∧ ((∀ t : Nat, (t : Int) ≤ vu - vl → vl + t < s ∨ D ≤ L - co * (vl - hi) + -co * t) ↔ -co * (hi - s) + D ≤ L) := by
  obtain ⟨g1, g2⟩ := split_pos (co := -co) (s := -s) (lo := -hi) (hi := -lo) (D := D) (Rg := Rg) (L := L) (U := U) (vl := -vu - 1) (vu := -vl - 1)
    (by omega) (by omega) (by omega) hD hR hL (by rw [hU]; ring) hU0
    (by rw [show U + -co * -lo = U + co * lo by ring]; omega) (by rw [show L + -co * -hi = L + co * hi by ring]; omega)
  refine ⟨by omega, ?_⟩
  rw [show -co * (hi - s) = -co * (-s - -hi) by ring, ← g2]
  constructor
  · intro h t ht
    have := h t (by omega)
    rcases this with this | this
    · left; omega
    · right; rw [show -vl - 1 - -hi + 1 = -(vl - hi) by ring]; linarith
  · intro h t ht
    have := h t (by omega)
    rcases this with this | this
    · left; omega
    · right; rw [show -vl - 1 - -hi + 1 = -(vl - hi) by ring] at this; linarith

/-! ### The stack of frames -/

/-- A clause is true. -/
def ClTrue (β : Nat → Bool) (c : List Int) : Prop := ∃ l ∈ c, litTrue β l

/-- Size of the range of a term. -/
def rngSum (lo up : Nat → Int) (es : CoVarVec) : Int := (es.map (fun e => (if e.1 > 0 then e.1 else -e.1) * (up e.2 - lo e.2))).sum

theorem rngSum_eq {lo up : Nat → Int} {es : CoVarVec} : rngSum lo up es = greatestSum lo up es - leastSum lo up es := by
  unfold rngSum
  induction es with
  | nil => rfl
  | cons e es ih =>
    obtain ⟨co, v⟩ := e
    rw [List.map_cons, List.sum_cons, ih, greatestSum, leastSum]
    dsimp only
    split_ifs <;> ring

theorem devSum_le {lo up : Nat → Int} {es : CoVarVec} (h : Within lo up σ es) : devSum lo up σ es ≤ rngSum lo up es := by
  unfold devSum rngSum
  induction es with
  | nil => simp
  | cons e es ih =>
    rw [List.map_cons, List.sum_cons, List.map_cons, List.sum_cons]
    refine add_le_add ?_ (ih (fun x hx => h x (by simp [hx])))
    have := h e (by simp)
    unfold devOf
    split_ifs
    · exact mul_le_mul_of_nonneg_left (by omega) (by omega)
    · exact mul_le_mul_of_nonneg_left (by omega) (by omega)

/-- The condition for the value of a frame that is taken after `t` others. -/
def headSem (β : Nat → Bool) (σ : Nat → Int) (es : CoVarVec) (clit : Int) (f : CFrame) (t : Nat) : Prop :=
  match f.i with
  | 0 => litTrue β clit
  | i + 1 =>
    match es[i]? with
    | none => True
    | some e => if e.1 > 0 then σ e.2 ≤ f.vu - t else f.vl + t < σ e.2

/-- How bounds change from one value of a frame to the next one. -/
def stepOf (es : CoVarVec) (i : Nat) : Int :=
  match i with
  | 0 => 0
  | i + 1 => match es[i]? with | none => 0 | some e => if e.1 > 0 then e.1 else -e.1

/-- What remains to be expressed for a frame. -/
def FSem (β : Nat → Bool) (σ lo up : Nat → Int) (es : CoVarVec) (clit : Int) (cl : List Int) (f : CFrame) : Prop :=
  ∀ t : Nat, (t : Int) ≤ f.vu - f.vl → (f.i = 0 → t = 0) →
    ClTrue β (cl.take f.j) ∨ headSem β σ es clit f t ∨ devSum lo up σ (es.drop f.i) ≤ f.lower + stepOf es f.i * t

/-- Frames are well-formed. -/
structure FWF (lo up : Nat → Int) (es : CoVarVec) (f : CFrame) : Prop where
  j : f.j ≤ f.i
  upper : f.upper = f.lower - rngSum lo up (es.drop f.i)
  root : f.i = 0 → f.vl = f.vu

/-- Stacks of frames are well-formed. -/
structure SWF (lo up : Nat → Int) (es : CoVarVec) (fs : List CFrame) : Prop where
  each : ∀ f ∈ fs, FWF lo up es f
  order : fs.Pairwise (fun a b => b.j ≤ a.j)

theorem headSem_root {es : CoVarVec} {clit : Int} {f : CFrame} {t : Nat} (h : f.i = 0) : headSem β σ es clit f t ↔ litTrue β clit := by
  unfold headSem; rw [h]
theorem headSem_elem {es : CoVarVec} {clit : Int} {f : CFrame} {t i : Nat} {e : Int × Nat} (h : f.i = i + 1) (he : es[i]? = some e) :
    headSem β σ es clit f t ↔ if e.1 > 0 then σ e.2 ≤ f.vu - t else f.vl + t < σ e.2 := by
  unfold headSem; rw [h]; dsimp only; rw [he]
theorem stepOf_elem {es : CoVarVec} {i : Nat} {e : Int × Nat} (he : es[i]? = some e) :
    stepOf es (i + 1) = if e.1 > 0 then e.1 else -e.1 := by
  unfold stepOf; dsimp only; rw [he]

/-- A frame with a positive coefficient after taking a value. -/
theorem fsem_next {lo up : Nat → Int} {es : CoVarVec} {clit : Int} {cl : List Int} {f f' : CFrame} {i : Nat} {e : Int × Nat}
    (hi : f.i = i + 1) (he : es[i]? = some e) (hv : f.vl ≤ f.vu) (h1 : f'.i = f.i) (h2 : f'.j = f.j)
    (h3 : if e.1 > 0 then f'.vu = f.vu - 1 ∧ f'.vl = f.vl else f'.vl = f.vl + 1 ∧ f'.vu = f.vu)
    (h4 : f'.lower = f.lower + stepOf es f.i) :
    FSem β σ lo up es clit cl f ↔
      ((ClTrue β (cl.take f.j) ∨ headSem β σ es clit f 0 ∨ devSum lo up σ (es.drop f.i) ≤ f.lower) ∧ FSem β σ lo up es clit cl f') := by
  have hd : f'.vu - f'.vl = f.vu - f.vl - 1 := by split_ifs at h3 <;> omega
  have hh : ∀ t : Nat, headSem β σ es clit f' t ↔ headSem β σ es clit f (t + 1) := by
    intro t
    rw [headSem_elem (h1.trans hi) he, headSem_elem hi he]
    split_ifs at h3 ⊢
    · rw [h3.1]; push_cast; constructor <;> intro <;> omega
    · rw [h3.1]; push_cast; constructor <;> intro <;> omega
  constructor
  · intro h
    refine ⟨?_, fun t ht _ => ?_⟩
    · simpa using h 0 (by simp; omega) (fun _ => rfl)
    · have := h (t + 1) (by push_cast; omega) (fun h => by omega)
      rw [h2, hh, h1, h4]
      rcases this with this | this | this
      · exact Or.inl this
      · exact Or.inr (Or.inl this)
      · refine Or.inr (Or.inr ?_)
        push_cast at this
        linarith
  · rintro ⟨h0, h⟩ t ht _
    cases t with
    | zero => simpa using h0
    | succ t =>
      have := h t (by push_cast at ht; omega) (fun h => by omega)
      rw [h2, hh, h1, h4] at this
      rcases this with this | this | this
      · exact Or.inl this
      · exact Or.inr (Or.inl this)
      · refine Or.inr (Or.inr ?_)
        push_cast
        linarith

theorem devSum_drop {lo up : Nat → Int} {es : CoVarVec} {i : Nat} {e : Int × Nat} (he : es[i]? = some e) :
    devSum lo up σ (es.drop i) = devOf lo up σ e + devSum lo up σ (es.drop (i + 1)) := by
  obtain ⟨h, rfl⟩ := List.getElem?_eq_some_iff.mp he
  unfold devSum
  rw [List.drop_eq_getElem_cons h, List.map_cons, List.sum_cons]

theorem rngSum_drop {lo up : Nat → Int} {es : CoVarVec} {i : Nat} {e : Int × Nat} (he : es[i]? = some e) :
    rngSum lo up (es.drop i) = (if e.1 > 0 then e.1 else -e.1) * (up e.2 - lo e.2) + rngSum lo up (es.drop (i + 1)) := by
  obtain ⟨h, rfl⟩ := List.getElem?_eq_some_iff.mp he
  unfold rngSum
  rw [List.drop_eq_getElem_cons h, List.map_cons, List.sum_cons]

theorem Within.drop {lo up : Nat → Int} {es : CoVarVec} (h : Within lo up σ es) (i : Nat) : Within lo up σ (es.drop i) :=
  fun e he => h e (List.mem_of_mem_drop he)

/-- The frame pushed for an element. -/
theorem fsem_push {lo up : Nat → Int} {es : CoVarVec} {clit : Int} {cl : List Int} {i j : Nat} {e : Int × Nat} {lower upper : Int} {s : Int × Int × Int × Int}
    (he : es[i]? = some e) (hne : e.1 ≠ 0) (hw : Within lo up σ es) (hU : upper = lower - rngSum lo up (es.drop i)) (hL : 0 ≤ lower) (hU0 : upper < 0)
    (hs : s = clauseSplit e.1 (lo e.2) (up e.2) lower upper) :
    (FSem β σ lo up es clit cl ⟨i + 1, j, s.1, s.2.1, s.2.2.1, s.2.2.2⟩ ↔ (ClTrue β (cl.take j) ∨ devSum lo up σ (es.drop i) ≤ lower)) ∧
    s.2.2.2 = s.2.2.1 - rngSum lo up (es.drop (i + 1)) := by
  have hwe := hw e (List.mem_of_getElem? he)
  have hD := devSum_nonneg (hw.drop (i + 1))
  have hR := devSum_le (hw.drop (i + 1))
  rw [devSum_drop he]
  rw [rngSum_drop he] at hU
  unfold clauseSplit at hs
  by_cases hc : e.1 > 0
  · rw [if_pos hc] at hs hU
    obtain ⟨g1, g2⟩ := split_pos (L := lower) (U := upper) hc hwe.1 hwe.2 hD hR hL (by rw [hU]; ring) hU0 rfl rfl
    dsimp only at hs
    refine ⟨?_, by rw [hs]; dsimp only; rw [hU]; ring⟩
    unfold FSem
    dsimp only
    have e1 : devOf lo up σ e = e.1 * (σ e.2 - lo e.2) := by unfold devOf; rw [if_pos hc]
    rw [e1, ← g2]
    simp only [headSem_elem (f := ⟨i + 1, j, s.1, s.2.1, s.2.2.1, s.2.2.2⟩) rfl he, stepOf_elem he, if_pos hc]
    rw [hs]
    dsimp only
    constructor
    · intro h
      by_cases hx : ClTrue β (cl.take j)
      · exact Or.inl hx
      · refine Or.inr (fun t ht => ?_)
        exact (h t ht (fun h => by omega)).resolve_left hx
    · rintro (h | h) t ht _
      · exact Or.inl h
      · exact Or.inr (h t ht)
  · rw [if_neg hc] at hs hU
    obtain ⟨g1, g2⟩ := split_neg (co := e.1) (L := lower) (U := upper) (by omega) hwe.1 hwe.2 hD hR hL (by rw [hU]; ring) hU0 rfl rfl
    dsimp only at hs
    refine ⟨?_, by rw [hs]; dsimp only; rw [hU]; ring⟩
    unfold FSem
    dsimp only
    have e1 : devOf lo up σ e = -e.1 * (up e.2 - σ e.2) := by unfold devOf; rw [if_neg hc]
    rw [e1, ← g2]
    simp only [headSem_elem (f := ⟨i + 1, j, s.1, s.2.1, s.2.2.1, s.2.2.2⟩) rfl he, stepOf_elem he, if_neg hc]
    rw [hs]
    dsimp only
    constructor
    · intro h
      by_cases hx : ClTrue β (cl.take j)
      · exact Or.inl hx
      · refine Or.inr (fun t ht => ?_)
        exact (h t ht (fun h => by omega)).resolve_left hx
    · rintro (h | h) t ht _
      · exact Or.inl h
      · exact Or.inr (h t ht)

/-- Frames below only depend on the part of the clause that is not overwritten. -/
theorem fsem_congr {lo up : Nat → Int} {es : CoVarVec} {clit : Int} {cl cl' : List Int} {f : CFrame} (h : cl'.take f.j = cl.take f.j) :
    FSem β σ lo up es clit cl' f ↔ FSem β σ lo up es clit cl f := by
  unfold FSem; rw [h]

/-- All frames are expressed. -/
def AllSem (β : Nat → Bool) (σ lo up : Nat → Int) (es : CoVarVec) (clit : Int) (fs : List CFrame) (cl : List Int) : Prop :=
  ∀ f ∈ fs, FSem β σ lo up es clit cl f

/-- Effect of taking a value. -/
structure Taken (β : Nat → Bool) (σ lo up : Nat → Int) (es : CoVarVec) (clit : Int) (f : CFrame) (fs rest : List CFrame) (l : Int) : Prop where
  ne : l ≠ 0
  lit : litTrue β l ↔ headSem β σ es clit f 0
  swf : SWF lo up es rest
  below : ∀ g ∈ rest, g.j ≤ f.j
  sem : ∀ cl, AllSem β σ lo up es clit (f :: fs) cl ↔
    ((ClTrue β (cl.take f.j) ∨ headSem β σ es clit f 0 ∨ devSum lo up σ (es.drop f.i) ≤ f.lower) ∧ AllSem β σ lo up es clit rest cl)

theorem ext_clauseTake {cc : CC} {es : CoVarVec} {clit : Int} {f : CFrame} {fs : List CFrame} : Ext' m (clauseTake cc es clit f fs) := by
  unfold clauseTake
  split
  · split
    · exact Ext'.ub
    · split <;> exact Ext'.bind ext_getLiteral (fun _ => Ext'.pure)
  · exact Ext'.pure

theorem tr_clauseTake {cc : CC} {es : CoVarVec} {clit : Int} {f : CFrame} {fs : List CFrame} (tt : litTrue β 1) (hc : clit ≠ 0)
    (hs : SWF (loF F) (upF F) es (f :: fs)) (hv : f.vl ≤ f.vu) :
    Tr β σ m (InvF β σ F) (clauseTake cc es clit f fs) (fun p W => InvF β σ F W ∧ Taken β σ (loF F) (upF F) es clit f fs p.1 p.2) := by
  have hf := hs.each f (by simp)
  have hfs : ∀ g ∈ fs, FWF (loF F) (upF F) es g := fun g hg => hs.each g (by simp [hg])
  have ho := List.pairwise_cons.mp hs.order
  have hall : ∀ cl, AllSem β σ (loF F) (upF F) es clit (f :: fs) cl ↔ (FSem β σ (loF F) (upF F) es clit cl f ∧ AllSem β σ (loF F) (upF F) es clit fs cl) := by
    intro cl; unfold AllSem; simp
  have next : ∀ (i : Nat) (e : Int × Nat) (f' : CFrame) (l : Int), f.i = i + 1 → es[i]? = some e → f'.i = f.i → f'.j = f.j →
      (if e.1 > 0 then f'.vu = f.vu - 1 ∧ f'.vl = f.vl else f'.vl = f.vl + 1 ∧ f'.vu = f.vu) → f'.lower = f.lower + stepOf es f.i →
      f'.upper = f.upper + stepOf es f.i → l ≠ 0 → (litTrue β l ↔ headSem β σ es clit f 0) →
      Taken β σ (loF F) (upF F) es clit f fs (f' :: fs) l := by
    intro i e f' l hi he h1 h2 h3 h4 h5 h6 h7
    refine ⟨h6, h7, ⟨?_, ?_⟩, ?_, fun cl => ?_⟩
    · intro g hg
      rcases List.mem_cons.mp hg with rfl | hg
      · exact ⟨by rw [h1, h2]; exact hf.j, by rw [h5, h4, hf.upper, h1]; ring, fun h => by omega⟩
      · exact hfs g hg
    · exact List.pairwise_cons.mpr ⟨fun g hg => by rw [h2]; exact ho.1 g hg, ho.2⟩
    · intro g hg
      rcases List.mem_cons.mp hg with rfl | hg
      · exact h2.le
      · exact ho.1 g hg
    · rw [hall, fsem_next hi he hv h1 h2 h3 h4]
      unfold AllSem
      simp [and_assoc]
  unfold clauseTake
  by_cases hi : f.i > 0
  · rw [if_pos hi]
    obtain ⟨i, hi'⟩ : ∃ i, f.i = i + 1 := ⟨f.i - 1, by omega⟩
    have e1 : f.i - 1 = i := by omega
    rw [e1]
    cases he : es[i]? with
    | none => exact Tr.ub
    | some e =>
      dsimp only
      refine Tr.ite (fun hp => ?_) (fun hp => ?_)
      · refine Tr.bindP (tr_getLiteral tt) (fun _ => Ext'.pure) (fun l hl => Tr.pure (fun _ h => ⟨h, ?_⟩))
        refine next i e _ l hi' he rfl rfl (by rw [if_pos hp]; exact ⟨rfl, rfl⟩) ?_ ?_ hl.1 ?_
        · dsimp only; rw [hi', stepOf_elem he, if_pos hp]
        · dsimp only; rw [hi', stepOf_elem he, if_pos hp]
        · rw [headSem_elem hi' he, if_pos hp, hl.2]; simp
      · refine Tr.bindP (tr_getLiteral tt) (fun _ => Ext'.pure) (fun l hl => Tr.pure (fun _ h => ⟨h, ?_⟩))
        refine next i e _ (-l) hi' he rfl rfl (by rw [if_neg hp]; exact ⟨rfl, rfl⟩) ?_ ?_ (by have := hl.1; omega) ?_
        · dsimp only; rw [hi', stepOf_elem he, if_neg hp]; ring
        · dsimp only; rw [hi', stepOf_elem he, if_neg hp]; ring
        · rw [headSem_elem hi' he, if_neg hp, litTrue_neg hl.1, hl.2]; simp
  · rw [if_neg hi]
    have h0 : f.i = 0 := by omega
    refine Tr.pure (fun _ h => ⟨h, hc, (headSem_root h0).symm, ⟨hfs, ho.2⟩, ho.1, fun cl => ?_⟩)
    rw [hall]
    refine and_congr_left (fun _ => ?_)
    unfold FSem
    constructor
    · intro h
      simpa using h 0 (by simp; omega) (fun _ => rfl)
    · intro h t ht ht0
      rw [ht0 h0]
      simpa using h

theorem clTrue_append {c : List Int} {l : Int} : ClTrue β (c ++ [l]) ↔ ClTrue β c ∨ litTrue β l := by
  unfold ClTrue; constructor
  · rintro ⟨x, hx, h⟩
    rcases List.mem_append.mp hx with hx | hx
    · exact Or.inl ⟨x, hx, h⟩
    · rw [List.mem_singleton] at hx; subst hx; exact Or.inr h
  · rintro (⟨x, hx, h⟩ | h)
    · exact ⟨x, by simp [hx], h⟩
    · exact ⟨l, by simp, h⟩

/-- Effect of writing a literal. -/
structure Put (β : Nat → Bool) (cl : List Int) (j : Nat) (l : Int) (q : List Int × Nat) : Prop where
  sem : ClTrue β (q.1.take q.2) ↔ ClTrue β (cl.take j) ∨ litTrue β l
  keep : ∀ k, k ≤ j → q.1.take k = cl.take k
  lo : j ≤ q.2
  hi : q.2 ≤ j + 1

theorem ext_clausePut {cl : List Int} {j : Nat} {l : Int} : Ext' m (clausePut cl j l) := by
  unfold clausePut
  split
  · exact Ext'.bind Ext'.assertS (fun _ => Ext'.pure)
  · exact Ext'.pure

theorem tr_clausePut {cl : List Int} {j : Nat} {l : Int} (tt : litTrue β 1) :
    Tr β σ m (InvF β σ F) (clausePut cl j l) (fun q W => InvF β σ F W ∧ Put β cl j l q) := by
  unfold clausePut
  refine Tr.ite (fun _ => ?_) (fun hl => ?_)
  · refine tr_assertP Ext'.pure (fun hj => ?_)
    simp only [decide_eq_true_eq] at hj
    refine Tr.pure (fun _ h => ⟨h, ?_, fun k hk => ?_, by simp, by simp⟩)
    · have : (cl.set j l).take (j + 1) = cl.take j ++ [l] := by
        rw [List.take_add_one, List.take_set_of_le (le_refl _)]
        simp [hj]
      rw [this, clTrue_append]
    · exact List.take_set_of_le hk
  · simp only [ne_eq, not_not] at hl
    subst hl
    refine Tr.pure (fun _ h => ⟨h, ?_, fun _ _ => rfl, le_refl _, by simp⟩)
    have := litTrue_false tt
    simp only [TRUE_LIT] at *
    simp [this]

theorem ext_clauseStep {cc : CC} {es : CoVarVec} {clit : Int} {lo : Bool} {f : CFrame} {fs : List CFrame} {cl : List Int} :
    Ext' m (clauseStep cc es clit lo f fs cl) := by
  unfold clauseStep
  split
  · exact Ext'.pure
  refine Ext'.bind ext_clauseTake (fun _ => Ext'.bind ext_clausePut (fun _ => ?_))
  split
  · split
    · exact Ext'.pure
    · exact Ext'.bind Ext'.addClause (fun _ => Ext'.pure)
  · refine Ext'.bind Ext'.assertS (fun _ => ?_)
    split
    · exact Ext'.ub
    · exact Ext'.bind Ext'.getVar (fun _ => Ext'.bind Ext'.assertS (fun _ => Ext'.bind Ext'.assertS (fun _ => Ext'.pure)))

/-- Effect of a step. -/
def Stepped (β : Nat → Bool) (σ lo up : Nat → Int) (m : Bool) (es : CoVarVec) (clit : Int) (litsOnly : Bool) (fs : List CFrame) (cl : List Int) :
    Option (List CFrame × List Int) → Prop
  | none => True
  | some p => SWF lo up es p.1 ∧ (m = false → AllSem β σ lo up es clit p.1 p.2) ∧
      (litsOnly = false → AllSem β σ lo up es clit p.1 p.2 → AllSem β σ lo up es clit fs cl)

theorem tr_clauseStep {cc : CC} {es : CoVarVec} {clit : Int} {lo : Bool} {f : CFrame} {fs : List CFrame} {cl : List Int} (tt : litTrue β 1) (hc : clit ≠ 0)
    (hne : ∀ e ∈ es, e.1 ≠ 0) (hw : Within (loF F) (upF F) σ es) (hs : SWF (loF F) (upF F) es (f :: fs))
    (hm : m = false → AllSem β σ (loF F) (upF F) es clit (f :: fs) cl) :
    Tr β σ m (InvF β σ F) (clauseStep cc es clit lo f fs cl)
      (fun r W => InvF β σ F W ∧ Stepped β σ (loF F) (upF F) m es clit lo (f :: fs) cl r) := by
  have hf := hs.each f (by simp)
  unfold clauseStep
  refine Tr.ite (fun hv => ?_) (fun hv => ?_)
  · refine Tr.pure (fun _ h => ⟨h, ⟨fun g hg => hs.each g (by simp [hg]), (List.pairwise_cons.mp hs.order).2⟩, fun h g hg => hm h g (by simp [hg]), fun _ ha g hg => ?_⟩)
    rcases List.mem_cons.mp hg with rfl | hg
    · intro t ht; omega
    · exact ha g hg
  have ext2 : ∀ p : List CFrame × Int, Ext' m (do
      let q ← clausePut cl f.j p.2
      if f.lower < 0 then
        if lo then return some (p.1, q.1)
        else do
          let ret ← addClause cc (q.1.take q.2)
          return if ret then some (p.1, q.1) else none
      else do
        assertS (decide (f.upper < 0))
        match es[f.i]? with
        | none => SM.ub
        | some e => do
          let vs ← getVar e.2
          let s := clauseSplit e.1 vs.lower vs.upper f.lower f.upper
          assertS (decide (vs.lower ≤ s.2.1 + 1))
          assertS (decide (s.1 ≤ vs.upper))
          return some (⟨f.i + 1, q.2, s.1, s.2.1, s.2.2.1, s.2.2.2⟩ :: p.1, q.1)) := by
    intro p
    refine Ext'.bind ext_clausePut (fun _ => ?_)
    split
    · split
      · exact Ext'.pure
      · exact Ext'.bind Ext'.addClause (fun _ => Ext'.pure)
    · refine Ext'.bind Ext'.assertS (fun _ => ?_)
      split
      · exact Ext'.ub
      · exact Ext'.bind Ext'.getVar (fun _ => Ext'.bind Ext'.assertS (fun _ => Ext'.bind Ext'.assertS (fun _ => Ext'.pure)))
  refine Tr.bindP (tr_clauseTake tt hc hs (by omega)) ext2 (fun p hp => ?_)
  refine Tr.bindP (tr_clausePut tt) (fun q => ?_) (fun q hq => ?_)
  · split
    · split
      · exact Ext'.pure
      · exact Ext'.bind Ext'.addClause (fun _ => Ext'.pure)
    · refine Ext'.bind Ext'.assertS (fun _ => ?_)
      split
      · exact Ext'.ub
      · exact Ext'.bind Ext'.getVar (fun _ => Ext'.bind Ext'.assertS (fun _ => Ext'.bind Ext'.assertS (fun _ => Ext'.pure)))
  -- the remaining frames do not depend on what was written
  have hrest : AllSem β σ (loF F) (upF F) es clit p.1 q.1 ↔ AllSem β σ (loF F) (upF F) es clit p.1 cl := by
    unfold AllSem
    exact forall₂_congr (fun g hg => fsem_congr (hq.keep _ (hp.below g hg)))
  have hhead : (ClTrue β (cl.take f.j) ∨ headSem β σ es clit f 0 ∨ devSum (loF F) (upF F) σ (es.drop f.i) ≤ f.lower) ↔
      (ClTrue β (q.1.take q.2) ∨ devSum (loF F) (upF F) σ (es.drop f.i) ≤ f.lower) := by
    rw [hq.sem, hp.lit, or_assoc]
  refine Tr.ite (fun hl => ?_) (fun hl => ?_)
  · have hno : ¬ devSum (loF F) (upF F) σ (es.drop f.i) ≤ f.lower := by
      have := devSum_nonneg (hw.drop f.i); omega
    have hsem := hp.sem cl
    rw [hhead, or_iff_left hno] at hsem
    refine Tr.ite (fun hlo => ?_) (fun hlo => ?_)
    · refine Tr.pure (fun _ h => ⟨h, hp.swf, fun hh => hrest.mpr (hsem.mp (hm hh)).2, fun hh => ?_⟩)
      rw [hh] at hlo; cases hlo
    · refine Tr.bindP (p := fun _ => ClTrue β (q.1.take q.2)) (Tr.addClause (fun W b hW ha => ?_)) (fun _ => Ext'.pure) (fun ret hret => ?_)
      · have key : ClTrue β (q.1.take q.2) := by
          cases m with
          | false => exact (hsem.mp (hm rfl)).1
          | true => exact ha.ev (e := .clause (q.1.take q.2)) (by simp)
        exact ⟨hW.log key, key⟩
      · refine Tr.pure (fun _ h => ⟨h, ?_⟩)
        cases ret with
        | false => trivial
        | true => exact ⟨hp.swf, fun hh => hrest.mpr (hsem.mp (hm hh)).2, fun _ ha => hsem.mpr ⟨hret, hrest.mp ha⟩⟩
  · refine tr_assertP ?_ (fun hU => ?_)
    · split
      · exact Ext'.ub
      · exact Ext'.bind Ext'.getVar (fun _ => Ext'.bind Ext'.assertS (fun _ => Ext'.bind Ext'.assertS (fun _ => Ext'.pure)))
    simp only [decide_eq_true_eq] at hU
    cases he : es[f.i]? with
    | none => exact Tr.ub
    | some e =>
      dsimp only
      refine Tr.getVarF (fun _ => Ext'.bind Ext'.assertS (fun _ => Ext'.bind Ext'.assertS (fun _ => Ext'.pure))) (fun vs _ _ _ _ hlo hup => ?_)
      refine Tr.bind tr_assertF (fun _ => Tr.bind tr_assertF (fun _ => ?_))
      refine Tr.pure (fun _ h => ⟨h, ?_⟩)
      obtain ⟨g1, g2⟩ := fsem_push (β := β) (clit := clit) (cl := q.1) (j := q.2) he (hne e (List.mem_of_getElem? he)) hw hf.upper (by omega) hU
        (show clauseSplit e.1 vs.lower vs.upper f.lower f.upper = _ by rw [hlo, hup])
      have hsem := hp.sem cl
      rw [hhead, ← g1, ← hrest] at hsem
      have hall : ∀ g, AllSem β σ (loF F) (upF F) es clit (g :: p.1) q.1 ↔ (FSem β σ (loF F) (upF F) es clit q.1 g ∧ AllSem β σ (loF F) (upF F) es clit p.1 q.1) := by
        intro g; unfold AllSem; simp
      have hall := hall ⟨f.i + 1, q.2, (clauseSplit e.1 vs.lower vs.upper f.lower f.upper).1, (clauseSplit e.1 vs.lower vs.upper f.lower f.upper).2.1,
        (clauseSplit e.1 vs.lower vs.upper f.lower f.upper).2.2.1, (clauseSplit e.1 vs.lower vs.upper f.lower f.upper).2.2.2⟩
      rw [← hall] at hsem
      refine ⟨⟨fun g hg => ?_, List.pairwise_cons.mpr ⟨fun g hg => le_trans (hp.below g hg) hq.lo, hp.swf.order⟩⟩, fun hh => hsem.mp (hm hh), fun _ ha => hsem.mpr ha⟩
      rcases List.mem_cons.mp hg with rfl | hg
      · exact ⟨by have := hq.hi; have := hf.j; dsimp only; omega, g2, fun h => by cases h⟩
      · exact hp.swf.each g hg

theorem ext_clauseLoop {cc : CC} {es : CoVarVec} {clit : Int} {lo : Bool} : ∀ {k : Nat} {fs : List CFrame} {cl : List Int},
    Ext' m (clauseLoop cc es clit lo k fs cl) := by
  intro k
  induction k with
  | zero => intro fs cl; cases fs <;> unfold clauseLoop <;> [exact Ext'.pure; exact Ext'.throw]
  | succ k ih =>
    intro fs cl
    cases fs with
    | nil => unfold clauseLoop; exact Ext'.pure
    | cons f fs =>
      unfold clauseLoop
      refine Ext'.bind ext_clauseStep (fun r => ?_)
      cases r with
      | none => exact Ext'.pure
      | some p => exact ih

theorem tr_clauseLoop {cc : CC} {es : CoVarVec} {clit : Int} {lo : Bool} (tt : litTrue β 1) (hc : clit ≠ 0)
    (hne : ∀ e ∈ es, e.1 ≠ 0) (hw : Within (loF F) (upF F) σ es) : ∀ {k : Nat} {fs : List CFrame} {cl : List Int}, SWF (loF F) (upF F) es fs →
    (m = false → AllSem β σ (loF F) (upF F) es clit fs cl) →
    Tr β σ m (InvF β σ F) (clauseLoop cc es clit lo k fs cl)
      (fun r W => InvF β σ F W ∧ (r = true → lo = false → AllSem β σ (loF F) (upF F) es clit fs cl)) := by
  intro k
  induction k with
  | zero =>
    intro fs cl _ _
    cases fs with
    | nil => unfold clauseLoop; exact Tr.pure (fun _ h => ⟨h, fun _ _ f hf => by cases hf⟩)
    | cons f fs => intro W a W' h; cases h
  | succ k ih =>
    intro fs cl hs hm
    cases fs with
    | nil => unfold clauseLoop; exact Tr.pure (fun _ h => ⟨h, fun _ _ f hf => by cases hf⟩)
    | cons f fs =>
      unfold clauseLoop
      refine Tr.bindP (tr_clauseStep tt hc hne hw hs hm) (fun r => ?_) (fun r hr => ?_)
      · cases r with
        | none => exact Ext'.pure
        | some p => exact ext_clauseLoop
      · cases r with
        | none => exact Tr.pure (fun _ h => ⟨h, fun h => by cases h⟩)
        | some p =>
          obtain ⟨h1, h2, h3⟩ := hr
          exact (ih h1 h2).post (fun _ _ h => ⟨h.1, fun a b => h3 b (h.2 a b)⟩)

theorem ext_clauseTranslate {cc : CC} {k : Nat} {lit lower upper : Int} {es : CoVarVec} {lo : Bool} : Ext' m (clauseTranslate cc k lit es lower upper lo) := by
  unfold clauseTranslate
  exact Ext'.bind ext_qFalse (fun _ => ext_clauseLoop)

theorem tr_clauseTranslate {cc : CC} {k : Nat} {lit lower upper : Int} {es : CoVarVec} {lo : Bool} (he : EnvSound cc β) (h0 : cc.level = 0) (hl : lit ≠ 0)
    (hne : ∀ e ∈ es, e.1 ≠ 0) (hw : Within (loF F) (upF F) σ es) (hU : upper = lower - rngSum (loF F) (upF F) es)
    (hp : m = false → litTrue β lit → devSum (loF F) (upF F) σ es ≤ lower) :
    Tr β σ m (InvF β σ F) (clauseTranslate cc k lit es lower upper lo)
      (fun r W => InvF β σ F W ∧ (r = true → lo = false → litTrue β lit → devSum (loF F) (upF F) σ es ≤ lower)) := by
  unfold clauseTranslate
  have hq : Tr β σ m (InvF β σ F) (qFalse cc (-lit)) (fun b W => InvF β σ F W ∧ (b = true → litTrue β lit)) := by
    intro W b W' h
    obtain ⟨rfl, rfl⟩ := qFalse_iff.mp h
    refine ⟨Grow.refl _ _, fun hi _ => ⟨hi, fun hb => ?_⟩⟩
    have := he.isFalse _ _ hi.1.good.posted hb (Or.inr h0)
    rw [litTrue_neg hl] at this
    exact not_not.mp this
  refine Tr.bindP hq (fun _ => ext_clauseLoop) (fun b hb => ?_)
  have hclit : litTrue β (if b then -TRUE_LIT else -lit) ↔ ¬ litTrue β lit := by
    cases b with
    | false => exact litTrue_neg hl
    | true =>
      constructor
      · intro h; exact absurd h (litTrue_false he.tt)
      · intro h; exact absurd (hb rfl) h
  have hsem : AllSem β σ (loF F) (upF F) es (if b then -TRUE_LIT else -lit) [⟨0, 0, 0, 0, lower, upper⟩] (List.replicate (es.length + 1) 0) ↔
      (litTrue β lit → devSum (loF F) (upF F) σ es ≤ lower) := by
    unfold AllSem
    rw [List.forall_mem_singleton]
    unfold FSem
    dsimp only
    constructor
    · intro h hh
      have := h 0 (by simp) (fun _ => rfl)
      rw [headSem_root rfl, hclit] at this
      simp only [List.take_zero, List.drop_zero, stepOf] at this
      rcases this with this | this | this
      · obtain ⟨x, hx, -⟩ := this; cases hx
      · exact absurd hh this
      · simpa using this
    · intro h t ht _
      rw [headSem_root rfl, hclit]
      by_cases hh : litTrue β lit
      · refine Or.inr (Or.inr ?_)
        simp only [List.drop_zero, stepOf]
        have := h hh; simpa using this
      · exact Or.inr (Or.inl hh)
  refine (tr_clauseLoop he.tt ?_ hne hw ⟨fun f hf => ?_, List.pairwise_singleton _ _⟩ (fun h => hsem.mpr (hp h))).post (fun r W h => ⟨h.1, fun a b => hsem.mp (h.2 a b)⟩)
  · split
    · simp [TRUE_LIT]
    · omega
  · rw [List.mem_singleton] at hf
    subst hf
    exact ⟨le_refl _, hU, fun _ => rfl⟩

end Clingcon
