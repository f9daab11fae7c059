import Verif.Model.Parsing
import Verif.Spec.Linear
import Verif.Proof.Util

/-! Helper lemmas about `simplify`. -/
namespace Clingcon
open Spec
set_option linter.unusedSimpArgs false
set_option linter.unusedSectionVars false

variable {V : Type} [DecidableEq V]

/-- `seen` maps exactly the variables in `out` to their position. -/
def SeenOK (seen : List (V × Nat)) (out : List (Int × V)) : Prop :=
  ∀ v i, seen.lookup v = some i ↔ ∃ co, out[i]? = some (co, v)

theorem seenOK_none {seen : List (V × Nat)} {out : List (Int × V)} (h : SeenOK seen out) (v : V) :
    seen.lookup v = none ↔ v ∉ out.map Prod.snd := by
  constructor
  · intro hn hm
    obtain ⟨⟨co, w⟩, hin, rfl⟩ := List.mem_map.1 hm
    obtain ⟨i, hi⟩ := List.mem_iff_getElem?.1 hin
    have := (h w i).2 ⟨co, hi⟩
    simp only at hn
    rw [hn] at this; cases this
  · intro hm
    cases hl : seen.lookup v with
    | none => rfl
    | some i =>
      obtain ⟨co, hi⟩ := (h v i).1 hl
      exact absurd (List.mem_map.2 ⟨_, List.mem_of_getElem? hi, rfl⟩) hm

theorem seenOK_append {seen : List (V × Nat)} {out : List (Int × V)} (h : SeenOK seen out) (co : Int) (v : V)
    (hn : seen.lookup v = none) : SeenOK ((v, out.length) :: seen) (out ++ [(co, v)]) := by
  have hnot := (seenOK_none h v).1 hn
  intro w i
  by_cases hw : w = v
  · subst hw
    simp only [List.lookup_cons, beq_self_eq_true, Option.some.injEq]
    constructor
    · rintro rfl; exact ⟨co, by simp⟩
    · rintro ⟨c, hc⟩
      rw [List.getElem?_append] at hc
      split at hc
      · exact absurd (List.mem_map.2 ⟨_, List.mem_of_getElem? hc, rfl⟩) hnot
      · have : i - out.length < 1 := by
          by_contra hcon
          rw [List.getElem?_eq_none (by simp; omega)] at hc; cases hc
        omega
  · rw [List.lookup_cons]
    have : (w == v) = false := by simp [hw]
    simp only [this]
    rw [h w i]
    constructor
    · rintro ⟨c, hc⟩
      refine ⟨c, ?_⟩
      rw [List.getElem?_append_left]; exact hc
      exact (List.getElem?_eq_some_iff.1 hc).1
    · rintro ⟨c, hc⟩
      rw [List.getElem?_append] at hc
      split at hc
      · exact ⟨c, hc⟩
      · have : i - out.length = 0 := by
          by_contra hcon
          rw [List.getElem?_eq_none (by simp; omega)] at hc; cases hc
        rw [this] at hc
        simp at hc
        exact absurd hc.2.symm hw

theorem seenOK_set {seen : List (V × Nat)} {out : List (Int × V)} (h : SeenOK seen out) (i : Nat) (co c' : Int) (v : V)
    (hi : out[i]? = some (co, v)) : SeenOK seen (out.set i (c', v)) := by
  have hlt := (List.getElem?_eq_some_iff.1 hi).1
  intro w j
  rw [h w j]
  by_cases hj : i = j
  · subst hj
    simp [hlt, hi]
    have := (List.getElem?_eq_some_iff.1 hi).2
    rw [this]; simp
  · simp [List.getElem?_set, hj]

theorem wsum_set (den : V → Int) (out : List (Int × V)) (i : Nat) (co c' : Int) (v : V)
    (hi : out[i]? = some (co, v)) : wsum den (out.set i (co + c', v)) = wsum den out + c' * den v := by
  induction out generalizing i with
  | nil => simp at hi
  | cons t ts ih =>
    cases i with
    | zero => simp at hi; subst hi; simp; ring
    | succ i => simp at hi; simp [ih i hi]; ring

theorem coeff_set (out : List (Int × V)) (i : Nat) (co c' : Int) (v w : V)
    (hi : out[i]? = some (co, v)) :
    coeff w (out.set i (co + c', v)) = coeff w out + (if v = w then c' else 0) := by
  induction out generalizing i with
  | nil => simp at hi
  | cons t ts ih =>
    cases i with
    | zero =>
      simp at hi; subst hi
      simp only [List.set_cons_zero, coeff_cons]
      split_ifs <;> ring
    | succ i => simp at hi; simp [ih i hi, coeff_cons]; ring

theorem map_snd_set (out : List (Int × V)) (i : Nat) (co c' : Int) (v : V)
    (hi : out[i]? = some (co, v)) : (out.set i (c', v)).map Prod.snd = out.map Prod.snd := by
  induction out generalizing i with
  | nil => simp at hi
  | cons t ts ih =>
    cases i with
    | zero => simp at hi; subst hi; simp
    | succ i => simp at hi; simp [ih i hi]

theorem bind_ok {α β : Type} {x : Res α} {f : α → Res β} {r : β} (h : (x >>= f) = .ok r) :
    ∃ a, x = .ok a ∧ f a = .ok r := by
  cases x with
  | error e => cases h
  | ok a => exact ⟨a, rfl, h⟩

theorem map_ok {α β : Type} {x : Res α} {f : α → β} {r : β} (h : Except.map f x = .ok r) :
    ∃ a, x = .ok a ∧ f a = r := by
  cases x with
  | error e => cases h
  | ok a => exact ⟨a, rfl, by simpa [Except.map] using h⟩

theorem pure_ok {α : Type} {a r : α} (h : (pure a : Res α) = .ok r) : a = r := by
  injection h

theorem machine_ok {L : Limits} {x r : Int} (h : machine L x = .ok r) : r = x ∧ L.Fits x := by
  unfold machine at h
  split_ifs at h with hf
  injection h with h
  exact ⟨h.symm, hf⟩

theorem safeAdd_ok {L : Limits} {a b r : Int} (h : safeAdd L a b = .ok r) : r = a + b ∧ L.Fits (a + b) := by
  unfold safeAdd at h
  split_ifs at h
  · obtain ⟨t, -, h⟩ := bind_ok h
    split_ifs at h
    · cases h
    · exact machine_ok h
  · obtain ⟨t, -, h⟩ := bind_ok h
    split_ifs at h
    · cases h
    · exact machine_ok h
  · exact machine_ok h

theorem safeSub_ok {L : Limits} {a b r : Int} (h : safeSub L a b = .ok r) : r = a - b ∧ L.Fits (a - b) := by
  unfold safeSub at h
  split_ifs at h
  · obtain ⟨t, -, h⟩ := bind_ok h
    split_ifs at h
    · cases h
    · exact machine_ok h
  · obtain ⟨t, -, h⟩ := bind_ok h
    split_ifs at h
    · cases h
    · exact machine_ok h
  · exact machine_ok h

theorem safeMul_ok {L : Limits} {a b r : Int} (h : safeMul L a b = .ok r) : r = a * b ∧ L.Fits (a * b) := by
  unfold safeMul at h
  split_ifs at h <;> first
    | exact machine_ok h
    | (obtain ⟨t, -, h⟩ := bind_ok h
       split_ifs at h
       · cases h
       · exact machine_ok h)

theorem safeInv_ok {L : Limits} {a r : Int} (h : safeInv L a = .ok r) : r = -a ∧ L.Fits (-a) := by
  unfold safeInv at h
  split_ifs at h
  · cases h
  · exact machine_ok h

theorem safeDiv_ok {L : Limits} {a b r : Int} (h : safeDiv L a b = .ok r) :
    b ≠ 0 ∧ r = a.tdiv b ∧ L.Fits (a.tdiv b) := by
  unfold safeDiv mDiv at h
  by_cases h1 : a = L.min ∧ b = -1
  · rw [if_pos h1] at h; cases h
  · rw [if_neg h1] at h
    by_cases h2 : b = 0
    · rw [if_pos h2] at h
      by_cases h3 : a < 0
      · rw [if_pos h3] at h; cases h
      · rw [if_neg h3] at h; cases h
    · rw [if_neg h2] at h
      simp only [if_neg h2] at h
      exact ⟨h2, machine_ok h⟩

theorem safeMod_ok {L : Limits} {a b r : Int} (h : safeMod L a b = .ok r) : b ≠ 0 ∧ r = a.tmod b := by
  unfold safeMod mMod at h
  by_cases h1 : a = L.min ∧ b = -1
  · rw [if_pos h1] at h; cases h
  · rw [if_neg h1] at h
    by_cases h2 : b = 0
    · rw [if_pos h2] at h
      by_cases h3 : a < 0
      · rw [if_pos h3] at h; cases h
      · rw [if_neg h3] at h; cases h
    · rw [if_neg h2] at h
      simp only [if_neg h2] at h
      by_cases h3 : L.Fits (a.tdiv b)
      · simp only [if_pos h3] at h
        injection h with h
        exact ⟨h2, h.symm⟩
      · simp only [if_neg h3] at h
        cases h

theorem checkValidValue_ok {x r : Int} (h : checkValidValue x = .ok r) : r = x ∧ MIN_VAL ≤ x ∧ x ≤ MAX_VAL := by
  unfold checkValidValue at h
  split_ifs at h
  injection h with h
  exact ⟨h.symm, by omega, by omega⟩

/-- The terms that `simplify` keeps as candidates. -/
def keptVars (isConst : V → Bool) (dz : Bool) (ts : List (Int × V)) : List V :=
  (ts.filter (fun t => !(dz && t.1 == 0) && !isConst t.2)).map Prod.snd

/-- Sum of the constant terms. -/
def constSum (isConst : V → Bool) (ts : List (Int × V)) : Int :=
  ((ts.filter (fun t => isConst t.2)).map Prod.fst).sum

theorem simplifyLoop_spec (isConst : V → Bool) (dz : Bool) (ts : List (Int × V)) :
    ∀ (out : List (Int × V)) (seen : List (V × Nat)) (rhs : Int) (out' : List (Int × V)) (rhs' : Int),
      SeenOK seen out → simplifyLoop isConst dz ts out seen rhs = .ok (out', rhs') →
      out'.map Prod.snd = out.map Prod.snd ++
        (firstOcc (keptVars isConst dz ts)).filter (fun v => v ∉ out.map Prod.snd) ∧
      (∀ v, isConst v = false → coeff v out' = coeff v out + coeff v ts) ∧
      rhs' = rhs - constSum isConst ts ∧
      (∀ den : V → Int, (∀ v, isConst v = true → den v = 1) →
        wsum den out' - rhs' = wsum den out - rhs + wsum den ts) := by
  induction ts with
  | nil =>
    intro out seen rhs out' rhs' _ h
    simp only [simplifyLoop, Except.ok.injEq, Prod.mk.injEq] at h
    obtain ⟨rfl, rfl⟩ := h
    simp [keptVars, firstOcc, constSum]
  | cons t ts ih =>
    obtain ⟨co, v⟩ := t
    intro out seen rhs out' rhs' hs h
    rw [simplifyLoop] at h
    split_ifs at h with hz hc
    · -- dropped zero
      obtain ⟨h1, h2, h3, h4⟩ := ih _ _ _ _ _ hs h
      have hdz : dz = true := by simp at hz; exact hz.1
      have hco : co = 0 := by simp at hz; exact hz.2
      subst hco; subst hdz
      refine ⟨?_, ?_, ?_, ?_⟩
      · rw [h1]; simp only [keptVars, List.filter_cons]; simp [hz]
      · intro w hw; rw [h2 w hw, coeff_cons]; simp
      · rw [h3]; unfold constSum; rw [List.filter_cons]; split <;> simp
      · intro den hd; rw [h4 den hd]; simp
    · -- constant
      obtain ⟨r, hr, h⟩ := bind_ok h
      obtain ⟨rfl, -⟩ := safeSub_ok hr
      obtain ⟨h1, h2, h3, h4⟩ := ih _ _ _ _ _ hs h
      refine ⟨?_, ?_, ?_, ?_⟩
      · rw [h1]; simp only [keptVars, List.filter_cons]; simp [hc]
      · intro w hw; rw [h2 w hw, coeff_cons]
        have : v ≠ w := by rintro rfl; rw [hc] at hw; cases hw
        simp [this]
      · rw [h3]; simp only [constSum, List.filter_cons]; simp [hc]; ring
      · intro den hd; rw [h4 den hd]; simp [hd v hc]; ring
    · have hc' : isConst v = false := by simpa using hc
      cases hl : seen.lookup v with
      | some i =>
        rw [hl] at h
        obtain ⟨co', hi⟩ := (hs v i).1 hl
        simp only [hi] at h
        obtain ⟨r, hr, h⟩ := bind_ok h
        obtain ⟨rfl, -⟩ := safeAdd_ok hr
        obtain ⟨h1, h2, h3, h4⟩ := ih _ _ _ _ _ (seenOK_set hs i co' _ v hi) h
        rw [map_snd_set _ _ _ _ _ hi] at h1
        have hmem : v ∈ out.map Prod.snd := List.mem_map.2 ⟨_, List.mem_of_getElem? hi, rfl⟩
        refine ⟨?_, ?_, ?_, ?_⟩
        · rw [h1]
          congr 1
          simp only [keptVars, List.filter_cons, hc', hz]
          simp only [Bool.not_false, Bool.true_and, Bool.not_eq_true] at *
          simp only [hz, Bool.not_false, if_true, List.map_cons, firstOcc]
          rw [List.filter_cons, if_neg (by simpa using hmem), List.filter_filter]
          apply List.filter_congr
          intro w hw
          by_cases hwv : w = v
          · subst hwv; simp [hmem]
          · simp [hwv]
        · intro w hw
          rw [h2 w hw, coeff_set _ _ _ _ _ _ hi, coeff_cons]; simp only; ring
        · rw [h3]; simp only [constSum, List.filter_cons]; simp [hc]
        · intro den hd
          rw [h4 den hd, wsum_set den _ _ _ _ _ hi]; simp; ring
      | none =>
        rw [hl] at h
        obtain ⟨h1, h2, h3, h4⟩ := ih _ _ _ _ _ (seenOK_append hs co v hl) h
        have hnot := (seenOK_none hs v).1 hl
        refine ⟨?_, ?_, ?_, ?_⟩
        · rw [h1]
          simp only [keptVars, List.filter_cons, hc', hz]
          simp only [Bool.not_false, Bool.true_and, Bool.not_eq_true] at *
          simp only [hz, Bool.not_false, if_true, List.map_cons, firstOcc, List.map_append, List.map_nil,
            List.append_assoc, List.singleton_append]
          rw [List.filter_cons, if_pos (by simpa using hnot), List.filter_filter]
          congr 2
          apply List.filter_congr
          intro w hw
          simp only [List.mem_append, List.mem_singleton]
          by_cases hwv : w = v <;> simp [hwv]
        · intro w hw
          rw [h2 w hw, coeff_append, coeff_cons, coeff_cons]; simp; ring
        · rw [h3]; simp only [constSum, List.filter_cons]; simp [hc]
        · intro den hd
          rw [h4 den hd]; simp; ring

theorem checkRange_ok {L : Limits} (rel : V → Bool) (ts : List (Int × V)) :
    ∀ (mn mx mn' mx' : Int), checkRange L rel ts mn mx = .ok (mn', mx') →
      (∀ t ∈ ts, MIN_VAL ≤ t.1 ∧ t.1 ≤ MAX_VAL) ∧
      mn' = mn - ((ts.filter (fun t => rel t.2)).map (fun t => |t.1| * MAX_VAL)).sum ∧
      mx' = mx + ((ts.filter (fun t => rel t.2)).map (fun t => |t.1| * MAX_VAL)).sum ∧
      (L.Fits mn → L.Fits mx → L.Fits mn' ∧ L.Fits mx') := by
  induction ts with
  | nil =>
    intro mn mx mn' mx' h
    simp only [checkRange, Except.ok.injEq, Prod.mk.injEq] at h
    obtain ⟨rfl, rfl⟩ := h
    simp
    exact fun a b => ⟨a, b⟩
  | cons t ts ih =>
    obtain ⟨co, v⟩ := t
    intro mn mx mn' mx' h
    rw [checkRange] at h
    obtain ⟨_, hv, h⟩ := bind_ok h
    have hv := (checkValidValue_ok hv).2
    split_ifs at h with hr hpos
    · obtain ⟨m1, e1, h⟩ := bind_ok h
      obtain ⟨n1, f1, h⟩ := bind_ok h
      obtain ⟨m2, e2, h⟩ := bind_ok h
      obtain ⟨n2, f2, h⟩ := bind_ok h
      obtain ⟨rfl, -⟩ := safeMul_ok e1
      obtain ⟨rfl, -⟩ := safeMul_ok e2
      obtain ⟨rfl, g1⟩ := safeAdd_ok f1
      obtain ⟨rfl, g2⟩ := safeAdd_ok f2
      obtain ⟨i1, i2, i3, i4⟩ := ih _ _ _ _ h
      have hab : |co| = co := abs_of_pos hpos
      refine ⟨?_, ?_, ?_, fun _ _ => i4 g1 g2⟩
      · intro t ht
        rcases List.mem_cons.1 ht with rfl | ht
        · exact hv
        · exact i1 t ht
      · rw [i2]; simp [List.filter_cons, hr, hab, MIN_VAL]; ring
      · rw [i3]; simp [List.filter_cons, hr, hab]; ring
    · obtain ⟨m1, e1, h⟩ := bind_ok h
      obtain ⟨n1, f1, h⟩ := bind_ok h
      obtain ⟨m2, e2, h⟩ := bind_ok h
      obtain ⟨n2, f2, h⟩ := bind_ok h
      obtain ⟨rfl, -⟩ := safeMul_ok e1
      obtain ⟨rfl, -⟩ := safeMul_ok e2
      obtain ⟨rfl, g1⟩ := safeAdd_ok f1
      obtain ⟨rfl, g2⟩ := safeAdd_ok f2
      obtain ⟨i1, i2, i3, i4⟩ := ih _ _ _ _ h
      have hab : |co| = -co := abs_of_nonpos (by omega)
      refine ⟨?_, ?_, ?_, fun _ _ => i4 g1 g2⟩
      · intro t ht
        rcases List.mem_cons.1 ht with rfl | ht
        · exact hv
        · exact i1 t ht
      · rw [i2]; simp [List.filter_cons, hr, hab, MIN_VAL]; ring
      · rw [i3]; simp [List.filter_cons, hr, hab, MIN_VAL]; ring
    · obtain ⟨i1, i2, i3, i4⟩ := ih _ _ _ _ h
      refine ⟨?_, ?_, ?_, i4⟩
      · intro t ht
        rcases List.mem_cons.1 ht with rfl | ht
        · exact hv
        · exact i1 t ht
      · rw [i2]; simp [List.filter_cons, hr]
      · rw [i3]; simp [List.filter_cons, hr]

theorem simplify_ok {vec out : CoVarVec} {dz : Bool} {rhs : Int} (h : simplify vec dz = .ok (out, rhs)) :
    ∃ out1, simplifyLoop (fun v => !isValidVar v) dz vec [] [] 0 = .ok (out1, rhs) ∧
      out = (if dz then out1.filter (fun t => t.1 != 0) else out1) ∧
      MIN_VAL ≤ rhs ∧ rhs ≤ MAX_VAL ∧ ∃ mm, checkRange .sum (fun _ => true) out rhs rhs = .ok mm := by
  unfold simplify at h
  obtain ⟨⟨out1, rhs1⟩, h1, h⟩ := bind_ok h
  obtain ⟨x, h2, h⟩ := bind_ok h
  obtain ⟨mm, h3, h⟩ := bind_ok h
  have h := pure_ok h
  simp only [Prod.mk.injEq] at h
  obtain ⟨rfl, rfl⟩ := h
  exact ⟨out1, h1, rfl, (checkValidValue_ok h2).2.1, (checkValidValue_ok h2).2.2, mm, h3⟩

theorem isValidVar_true (v : Nat) : isValidVar v = true ↔ v < 4294967295 := by
  unfold isValidVar INVALID_VAR; exact decide_eq_true_iff
theorem isValidVar_false (v : Nat) : isValidVar v = false ↔ 4294967295 ≤ v := by
  rw [← Bool.not_eq_true, isValidVar_true]; omega

theorem seenOK_nil : SeenOK ([] : List (V × Nat)) [] := by
  intro v i; simp

theorem wsum_filter_ne_zero (den : V → Int) (ts : List (Int × V)) :
    wsum den (ts.filter (fun t => t.1 != 0)) = wsum den ts := by
  induction ts with
  | nil => rfl
  | cons t ts ih =>
    rw [List.filter_cons]
    split_ifs with h
    · simp [ih]
    · simp only [bne_iff_ne, ne_eq, Decidable.not_not] at h
      simp [ih, h]

theorem coeff_filter_ne_zero (v : V) (ts : List (Int × V)) :
    coeff v (ts.filter (fun t => t.1 != 0)) = coeff v ts := by
  induction ts with
  | nil => rfl
  | cons t ts ih =>
    rw [List.filter_cons]
    split_ifs with h
    · simp [ih, coeff_cons]
    · simp only [bne_iff_ne, ne_eq, Decidable.not_not] at h
      simp [ih, h, coeff_cons]

theorem coeff_of_mem {ts : List (Int × V)} (hn : (ts.map Prod.snd).Nodup) {t : Int × V} (ht : t ∈ ts) :
    coeff t.2 ts = t.1 := by
  induction ts with
  | nil => cases ht
  | cons u us ih =>
    simp only [List.map_cons, List.nodup_cons] at hn
    rw [coeff_cons]
    rcases List.mem_cons.1 ht with rfl | ht
    · have : coeff t.2 us = 0 := by
        unfold coeff
        rw [List.filter_eq_nil_iff.2]
        · rfl
        · intro a ha
          simp only [decide_eq_true_eq]
          rintro h
          exact hn.1 (List.mem_map.2 ⟨a, ha, h⟩)
      simp [this]
    · have : u.2 ≠ t.2 := by
        intro h; exact hn.1 (h ▸ List.mem_map.2 ⟨t, ht, rfl⟩)
      simp [this, ih hn.2 ht]

theorem map_snd_filter (ts : List (Int × V)) (hn : (ts.map Prod.snd).Nodup) (f : V → Int)
    (hf : ∀ t ∈ ts, t.1 = f t.2) :
    (ts.filter (fun t => t.1 != 0)).map Prod.snd = (ts.map Prod.snd).filter (fun v => f v ≠ 0) := by
  induction ts with
  | nil => rfl
  | cons u us ih =>
    simp only [List.map_cons, List.nodup_cons] at hn
    have hu := hf u (by simp)
    have ih := ih hn.2 (fun t ht => hf t (by simp [ht]))
    rw [List.filter_cons, List.map_cons, List.filter_cons]
    by_cases h : u.1 = 0
    · rw [if_neg (by simp [h]), if_neg (by simp [← hu, h]), ih]
    · rw [if_pos (by simp [h]), if_pos (by simp [← hu, h]), List.map_cons, ih]

/-- Sum of absolute values of coefficients. -/
def absSum (ts : List (Int × V)) : Int := (ts.map (fun t => |t.1|)).sum

@[simp] theorem absSum_nil : absSum ([] : List (Int × V)) = 0 := rfl
@[simp] theorem absSum_cons (t : Int × V) (ts) : absSum (t :: ts) = |t.1| + absSum ts := by simp [absSum]
@[simp] theorem absSum_append (a b : List (Int × V)) : absSum (a ++ b) = absSum a + absSum b := by simp [absSum]
theorem absSum_nonneg (ts : List (Int × V)) : 0 ≤ absSum ts := by
  induction ts with
  | nil => simp
  | cons t ts ih => simp; have := abs_nonneg t.1; omega

theorem absSum_set (out : List (Int × V)) (i : Nat) (co c' : Int) (v : V)
    (hi : out[i]? = some (co, v)) :
    absSum (out.set i (c', v)) + |co| = absSum out + |c'| := by
  induction out generalizing i with
  | nil => simp at hi
  | cons t ts ih =>
    cases i with
    | zero => simp at hi; subst hi; simp; ring
    | succ i => simp at hi; simp; have := ih i hi; omega

theorem absSum_mem {ts : List (Int × V)} {t : Int × V} (h : t ∈ ts) : |t.1| ≤ absSum ts := by
  induction ts with
  | nil => cases h
  | cons u us ih =>
    simp
    rcases List.mem_cons.1 h with rfl | h
    · have := absSum_nonneg us; omega
    · have := ih h; have := abs_nonneg u.1; omega

theorem absSum_filter (p : Int × V → Bool) (ts : List (Int × V)) : absSum (ts.filter p) ≤ absSum ts := by
  induction ts with
  | nil => simp
  | cons u us ih =>
    rw [List.filter_cons]
    have := abs_nonneg u.1
    split_ifs <;> simp <;> omega

theorem val_two : TwosComplement Limits.val := twosComplement_signed _
theorem sum_two : TwosComplement Limits.sum := twosComplement_signed _

theorem val_fits (x : Int) : Limits.val.Fits x ↔ -2147483648 ≤ x ∧ x ≤ 2147483647 := by
  simp [Limits.Fits, Limits.val, Limits.signed]
theorem sum_fits (x : Int) : Limits.sum.Fits x ↔ -9223372036854775808 ≤ x ∧ x ≤ 9223372036854775807 := by
  simp [Limits.Fits, Limits.sum, Limits.signed]
theorem max_val : MAX_VAL = 1073741823 := by decide
theorem min_val : MIN_VAL = -1073741823 := by decide

theorem safeAdd_fits {L : Limits} (hL : TwosComplement L) {a b : Int} (ha : L.Fits a) (hb : L.Fits b)
    (h : L.Fits (a + b)) : safeAdd L a b = .ok (a + b) := by
  rw [safeAdd_spec L hL a b ha hb, exactOrThrow]
  unfold Limits.Fits at h
  rw [if_neg (by omega), if_neg (by omega)]
theorem safeSub_fits {L : Limits} (hL : TwosComplement L) {a b : Int} (ha : L.Fits a) (hb : L.Fits b)
    (h : L.Fits (a - b)) : safeSub L a b = .ok (a - b) := by
  rw [safeSub_spec L hL a b ha hb, exactOrThrow]
  unfold Limits.Fits at h
  rw [if_neg (by omega), if_neg (by omega)]
theorem safeMul_fits {L : Limits} (hL : TwosComplement L) {a b : Int} (ha : L.Fits a) (hb : L.Fits b)
    (h : L.Fits (a * b)) : safeMul L a b = .ok (a * b) := by
  rw [safeMul_spec L hL a b ha hb, exactOrThrow]
  unfold Limits.Fits at h
  rw [if_neg (by omega), if_neg (by omega)]
theorem safeInv_fits {L : Limits} (hL : TwosComplement L) {a : Int} (ha : L.Fits a)
    (h : L.Fits (-a)) : safeInv L a = .ok (-a) := by
  rw [safeInv_spec L hL a ha, exactOrThrow]
  unfold Limits.Fits at h
  rw [if_neg (by omega), if_neg (by omega)]

theorem simplifyLoop_total (isConst : V → Bool) (dz : Bool) (ts : List (Int × V)) :
    ∀ (out : List (Int × V)) (seen : List (V × Nat)) (rhs : Int), SeenOK seen out →
      absSum out + |rhs| + absSum ts ≤ MAX_VAL →
      ∃ out' rhs', simplifyLoop isConst dz ts out seen rhs = .ok (out', rhs') ∧ absSum out' + |rhs'| ≤ MAX_VAL := by
  induction ts with
  | nil =>
    intro out seen rhs _ h
    exact ⟨out, rhs, rfl, by simpa using h⟩
  | cons t ts ih =>
    obtain ⟨co, v⟩ := t
    intro out seen rhs hs h
    rw [simplifyLoop]
    rw [max_val] at h
    simp only [absSum_cons] at h
    have a1 := absSum_nonneg out
    have a2 := absSum_nonneg ts
    have a3 := abs_nonneg co
    have a4 := abs_nonneg rhs
    have b3 := neg_abs_le co
    have b4 := neg_abs_le rhs
    have c3 := le_abs_self co
    have c4 := le_abs_self rhs
    split_ifs with hz hc
    · exact ih _ _ _ hs (by rw [max_val]; omega)
    · rw [safeSub_fits val_two (by rw [val_fits]; omega) (by rw [val_fits]; omega) (by rw [val_fits]; omega)]
      have := abs_sub rhs co
      exact ih _ _ _ hs (by rw [max_val]; omega)
    · cases hl : seen.lookup v with
      | some i =>
        obtain ⟨co', hi⟩ := (hs v i).1 hl
        have hm := absSum_mem (List.mem_of_getElem? hi)
        simp only at hm
        have b5 := neg_abs_le co'
        have c5 := le_abs_self co'
        simp only [hi]
        rw [safeAdd_fits val_two (by rw [val_fits]; omega) (by rw [val_fits]; omega) (by rw [val_fits]; omega)]
        refine ih _ _ _ (seenOK_set hs i co' _ v hi) ?_
        have := absSum_set out i co' (co' + co) v hi
        have := abs_add_le co' co
        rw [max_val]; omega
      | none =>
        refine ih _ _ _ (seenOK_append hs co v hl) ?_
        simp; rw [max_val]; omega

theorem checkRange_total (ts : List (Int × V)) : ∀ (mn mx : Int), 
    absSum ts * MAX_VAL - mn ≤ 9223372036854775807 → absSum ts * MAX_VAL + mx ≤ 9223372036854775807 →
    absSum ts ≤ MAX_VAL → mn ≤ MAX_VAL → MIN_VAL ≤ mx →
    ∃ mm, checkRange .sum (fun _ => true) ts mn mx = .ok mm := by
  induction ts with
  | nil => intro mn mx _ _ _ _ _; exact ⟨_, rfl⟩
  | cons t ts ih =>
    obtain ⟨co, v⟩ := t
    intro mn mx h1 h2 h3 h4 h5
    simp only [absSum_cons] at h1 h2 h3
    have a1 := absSum_nonneg ts
    have a2 := abs_nonneg co
    have b3 := neg_abs_le co
    have c3 := le_abs_self co
    rw [max_val] at *
    rw [min_val] at *
    have hv : checkValidValue co = .ok co := by
      unfold checkValidValue
      rw [if_neg (by rw [min_val]; omega), if_neg (by rw [max_val]; omega)]
    rw [checkRange, hv]
    simp only [if_true]
    rcases le_or_gt co 0 with hc | hc
    · have hab : |co| = -co := abs_of_nonpos hc
      simp only [if_neg (not_lt.2 hc)]
      show ∃ mm, (do
        let mn ← safeAdd .sum mn (← safeMul .sum co MAX_VAL)
        let mx ← safeAdd .sum mx (← safeMul .sum co MIN_VAL)
        checkRange .sum (fun _ => true) ts mn mx) = .ok mm
      rw [max_val, min_val]
      rw [safeMul_fits sum_two (by rw [sum_fits]; omega) (by rw [sum_fits]; omega) (by rw [sum_fits]; omega)]
      rw [safeMul_fits sum_two (by rw [sum_fits]; omega) (by rw [sum_fits]; omega) (by rw [sum_fits]; omega)]
      show ∃ mm, (do
        let mn ← safeAdd .sum mn (co * 1073741823)
        let mx ← safeAdd .sum mx (co * (-1073741823))
        checkRange .sum (fun _ => true) ts mn mx) = .ok mm
      rw [safeAdd_fits sum_two (by rw [sum_fits]; omega) (by rw [sum_fits]; omega) (by rw [sum_fits]; omega)]
      rw [safeAdd_fits sum_two (by rw [sum_fits]; omega) (by rw [sum_fits]; omega) (by rw [sum_fits]; omega)]
      exact ih _ _ (by omega) (by omega) (by omega) (by omega) (by omega)
    · have hab : |co| = co := abs_of_pos hc
      simp only [if_pos hc]
      show ∃ mm, (do
        let mn ← safeAdd .sum mn (← safeMul .sum co MIN_VAL)
        let mx ← safeAdd .sum mx (← safeMul .sum co MAX_VAL)
        checkRange .sum (fun _ => true) ts mn mx) = .ok mm
      rw [max_val, min_val]
      rw [safeMul_fits sum_two (by rw [sum_fits]; omega) (by rw [sum_fits]; omega) (by rw [sum_fits]; omega)]
      rw [safeMul_fits sum_two (by rw [sum_fits]; omega) (by rw [sum_fits]; omega) (by rw [sum_fits]; omega)]
      show ∃ mm, (do
        let mn ← safeAdd .sum mn (co * (-1073741823))
        let mx ← safeAdd .sum mx (co * 1073741823)
        checkRange .sum (fun _ => true) ts mn mx) = .ok mm
      rw [safeAdd_fits sum_two (by rw [sum_fits]; omega) (by rw [sum_fits]; omega) (by rw [sum_fits]; omega)]
      rw [safeAdd_fits sum_two (by rw [sum_fits]; omega) (by rw [sum_fits]; omega) (by rw [sum_fits]; omega)]
      exact ih _ _ (by omega) (by omega) (by omega) (by omega) (by omega)

end Clingcon
