import Verif.Props.CheckFull
import Verif.Props.Levels
import Verif.Props.Util
import Verif.Proof.Nested
import Verif.Spec.Split

/-! Properties C18, C24 and C49: links between order literals, the final check and splitting of domains. -/
namespace Clingcon.Props
open Clingcon Clingcon.Spec VarState

variable {W W' : World} {cc : CC}

/-! ### C18 -/

/-- **C18** In each reachable state, a valid entry of the map from literals belongs to an order literal in the table of its
variable, and the recorded neighbours are the literals of the nearest smaller and larger values in the table. -/
theorem C18_links {i : Nat} {e : LitmapEntry} (hr : Reach W) (he : W.litmap[i]? = some e) (hp : e.prev ≠ 0) :
    ∃ vs, W.vars[e.var]? = some vs ∧ (e.value, litAt i e.sign) ∈ vs.with ∧ IsPrev vs.with e.value e.prev ∧ IsSucc vs.with e.value e.succ := by
  obtain ⟨-, vs, h1, h2, h3⟩ := hr.ti.link i e he hp
  exact ⟨vs, h1, hr.ti.mem i e he hp vs h1, h2, h3⟩

/-- **C18** In each reachable state, each order literal other than the true and false literal has a valid entry with its variable
and value, so the entries and tables determine each other. -/
theorem C18_entries {v : Nat} {vs : VarState} {k l : Int} (hr : Reach W) (hv : W.vars[v]? = some vs) (hm : (k, l) ∈ vs.with) (hl : l.natAbs ≠ 1) :
    ∃ e, W.litmap[l.natAbs - 1]? = some e ∧ e.prev ≠ 0 ∧ e.var = v ∧ e.value = k ∧ (e.sign = true ↔ 0 < l) := by
  obtain ⟨e, h1, h2, h3, h4, h5⟩ := hr.ti.own v vs k l hv hm hl
  refine ⟨e, h1, h2, h3, h4, ?_⟩
  rw [h5]; simp [LitmapEntry.getSign]

/-- Variables with order literals for several values, some of which have been removed or became facts. -/
def linked : World := (tryRun [.addVar 0 10, .addVar 0 10, .literal (assigns 0 []) 0 4, .literal (assigns 0 []) 0 8, .literal (assigns 0 []) 0 6,
  .literal (assigns 0 []) 1 5, .updLiteral (assigns 0 []) 0 7 (some true)] (World.init 2)).getD (World.init 2)

/-- The literals 2, 3 and 4 stand for the values 4, 8 and 6 of the first variable; 4 (position 3) has 2 and the fact for 7 as neighbours. -/
example : Reach linked ∧ linked.litmap[3]? = some ⟨0, false, 6, -2, 1⟩ := ⟨⟨2, _, by decide, tryRun_getD (by decide +kernel)⟩, by decide +kernel⟩

/-! ### C49 -/

/-- The bounds of all variables are in the range of the type of values. -/
def InRange (W : World) : Prop := ∀ v, (Limits.signed 31).Fits (lowerOf W v) ∧ (Limits.signed 31).Fits (upperOf W v)

/-- States between two splits. -/
structure Mid (W W' : World) : Prop where
  ti : TI W'
  nested : AllNested W'
  bounds : boundsOf W' = boundsOf W
  lits : ∀ v k, HasLit W v k → HasLit W' v k
  log : W.log.length ≤ W'.log.length

theorem Mid.trans {W1 : World} (h : Mid W W1) (h' : Mid W1 W') : Mid W W' :=
  ⟨h'.ti, h'.nested, h'.bounds.trans h.bounds, fun v k hk => h'.lits v k (h.lits v k hk), h.log.trans h'.log⟩

theorem Mid.refl (h : TI W) (h' : AllNested W) : Mid W W := ⟨h, h', rfl, fun _ _ hk => hk, le_refl _⟩

theorem bounds_frame (h : frame W' = frame W) : boundsOf W' = boundsOf W := by
  have h1 : W'.vars.map VarState.bounds = W.vars.map VarState.bounds := congrArg Prod.fst h
  have : ∀ W : World, boundsOf W = (W.vars.map VarState.bounds).map (fun x => (x.lower, x.upper)) := by
    intro W; unfold boundsOf; rw [List.map_map]; rfl
  rw [this, this, h1]

theorem lower_of_bounds (h : boundsOf W' = boundsOf W) (v : Nat) : lowerOf W' v = lowerOf W v ∧ upperOf W' v = upperOf W v := by
  unfold lowerOf upperOf; rw [h]; exact ⟨rfl, rfl⟩

theorem hasLit_set {v w : Nat} {vs vs' : VarState} {k : Int} (hv : W.vars[v]? = some vs) (h : ∀ k l, (k, l) ∈ vs.with → ∃ l', (k, l') ∈ vs'.with)
    (hk : HasLit W w k) (he : W'.vars = W.vars.set v vs') : HasLit W' w k := by
  obtain ⟨x, l, h1, h2⟩ := hk
  by_cases hw : v = w
  · subst hw
    rw [hv] at h1; injection h1 with h1; subst h1
    obtain ⟨l', h3⟩ := h k l h2
    exact ⟨vs', l', by rw [he, List.getElem?_set_self (List.getElem?_eq_some_iff.mp hv).1], h3⟩
  · exact ⟨x, l, by rw [he, List.getElem?_set_ne hw]; exact h1, h2⟩

/-- A literal for a value between the bounds. -/
theorem literal_mid {v : Nat} {k l : Int} {vs : VarState} (ht : TI W) (hn : AllNested W) (hv : W.vars[v]? = some vs) (h1 : vs.lower ≤ k) (h2 : k < vs.upper)
    (h : getLiteral cc v k W = .ok (l, W')) : Mid W W' ∧ HasLit W' v k ∧ (¬ HasLit W v k → W.log.length < W'.log.length) := by
  have hg := getLiteral_eff ht.wf (by have := ht.pos; omega) h
  have ht' := hg.ti ht
  have hn' := (AllNested.fr fr_getLiteral).kw _ _ _ h hn
  have hb := bounds_frame (fr_getLiteral.fr _ _ _ h)
  have hs := hn.get hv
  have hlen := (List.getElem?_eq_some_iff.mp hv).1
  have hmin : vs.minBound ≤ vs.lower := by
    unfold VarState.minBound
    cases hl : vs.lowerStack.getLast? with
    | none => exact le_refl _
    | some p =>
      have := (List.pairwise_cons.mp hs.low).1 p.2 (List.mem_map_of_mem (List.mem_of_getLast? hl))
      exact this
  have hmax : vs.upper ≤ vs.maxBound := by
    unfold VarState.maxBound
    cases hl : vs.upperStack.getLast? with
    | none => exact le_refl _
    | some p =>
      have := (List.pairwise_cons.mp hs.upp).1 p.2 (List.mem_map_of_mem (List.mem_of_getLast? hl))
      exact this
  cases hg with
  | low vs1 hv1 hlt =>
    rw [hv] at hv1; injection hv1 with hv1; subst hv1; omega
  | high vs1 hv1 _ hlt =>
    rw [hv] at hv1; injection hv1 with hv1; subst hv1; omega
  | old vs1 vs' l hv1 _ _ hm hs =>
    rw [hv] at hv1; injection hv1 with hv1; subst hv1
    refine ⟨⟨ht', hn', hb, fun w k' hk' => ?_, le_refl _⟩, ⟨vs', l, List.getElem?_set_self hlen, (hs.mem _ _).mpr hm⟩,
      fun hc => absurd ⟨vs, l, hv, hm⟩ hc⟩
    exact hasLit_set hv (fun k l h => ⟨l, (hs.mem _ _).mpr h⟩) hk' rfl
  | new vs1 vs' l hv1 _ _ hno hs hl =>
    rw [hv] at hv1; injection hv1 with hv1; subst hv1
    refine ⟨⟨ht', hn', hb, fun w k' hk' => ?_, by simp only [List.length_cons]; omega⟩, ⟨vs', l, List.getElem?_set_self hlen, (hs.mem _ _).mpr (by rw [if_pos rfl])⟩,
      fun _ => by simp only [List.length_cons]; omega⟩
    refine hasLit_set hv (fun k1 l1 h => ?_) hk' rfl
    by_cases hk : k1 = k
    · exact ⟨l, (hs.mem _ _).mpr (by rw [if_pos hk])⟩
    · exact ⟨l1, (hs.mem _ _).mpr (by rw [if_neg hk]; exact h)⟩

/-- The domain of the variable has been split. -/
def Split (W W' : World) (v : Nat) : Prop :=
  ∃ k, lowerOf W v ≤ k ∧ k < upperOf W v ∧ HasLit W' v k ∧ (¬ HasLit W v k → W.log.length < W'.log.length)

theorem Split.mid {W1 : World} {v : Nat} (h : Split W W1 v) (h' : Mid W1 W') : Split W W' v := by
  obtain ⟨k, h1, h2, h3, h4⟩ := h
  exact ⟨k, h1, h2, h'.lits _ _ h3, fun h => lt_of_lt_of_le (h4 h) h'.log⟩

theorem splitVar_mid {v : Nat} {r : Bool} (ht : TI W) (hn : AllNested W) (hr : InRange W) (h : splitVar cc v W = .ok (r, W')) :
    Mid W W' ∧ (r = true → Split W W' v) ∧ (r = false → lowerOf W v = upperOf W v ∧ W' = W) := by
  unfold splitVar at h
  obtain ⟨vs, W1, h1, h2⟩ := SM.bind_ok h
  obtain ⟨hv, rfl⟩ := getVar_iff.mp h1
  obtain ⟨e1, e2⟩ := getVar_lower hv
  have hb := (hn.get hv).le
  cases ha : vs.isAssigned with
  | true =>
    rw [ha] at h2
    obtain ⟨rfl, rfl⟩ := pure_iff.mp h2
    refine ⟨Mid.refl ht hn, (by intro h; cases h), fun _ => ⟨?_, rfl⟩⟩
    rw [e1, e2]; simpa [VarState.isAssigned] using ha
  | false =>
    rw [ha] at h2
    obtain ⟨_, W2, h3, h4⟩ := SM.bind_ok h2
    obtain ⟨l, h3⟩ := discard_iff.mp h3
    obtain ⟨rfl, rfl⟩ := pure_iff.mp h4
    have hne : vs.lower ≠ vs.upper := by simpa [VarState.isAssigned] using ha
    obtain ⟨r1, r2⟩ := hr v
    rw [e1] at r1
    rw [e2] at r2
    obtain ⟨m1, m2⟩ := C04_midpoint 31 vs.lower vs.upper r1 r2 (by omega)
    obtain ⟨g1, g2, g3⟩ := literal_mid ht hn hv m1 m2 h3
    exact ⟨g1, fun _ => ⟨_, by rw [e1]; exact m1, by rw [e2]; exact m2, g2, g3⟩, by intro h; cases h⟩

theorem inRange_mid (h : Mid W W') (hr : InRange W) : InRange W' := by
  intro v
  rw [(lower_of_bounds h.bounds v).1, (lower_of_bounds h.bounds v).2]
  exact hr v

theorem splitEach_mid : ∀ {vs : List Nat} {r : Bool} {W W' : World}, TI W → AllNested W → InRange W → splitEach cc vs W = .ok (r, W') →
    Mid W W' ∧ (∀ v ∈ vs, lowerOf W v ≠ upperOf W v → ∃ k, lowerOf W v ≤ k ∧ k < upperOf W v ∧ HasLit W' v k) ∧
      (r = true → ∃ v ∈ vs, Split W W' v) ∧ (r = false → (∀ v ∈ vs, lowerOf W v = upperOf W v) ∧ W' = W)
  | [], r, W, W', ht, hn, hr, h => by
    obtain ⟨rfl, rfl⟩ := pure_iff.mp h
    exact ⟨Mid.refl ht hn, by simp, (by intro h; cases h), fun _ => ⟨by simp, rfl⟩⟩
  | v :: vs, r, W, W', ht, hn, hr, h => by
    unfold splitEach at h
    obtain ⟨a, W1, h1, h2⟩ := SM.bind_ok h
    obtain ⟨b, W2, h3, h4⟩ := SM.bind_ok h2
    obtain ⟨rfl, rfl⟩ := pure_iff.mp h4
    obtain ⟨i1, i2, i3⟩ := splitVar_mid ht hn hr h1
    obtain ⟨j1, j2, j3, j4⟩ := splitEach_mid i1.ti i1.nested (inRange_mid i1 hr) h3
    refine ⟨i1.trans j1, ?_, ?_, ?_⟩
    · intro w hw hne
      rcases List.mem_cons.mp hw with rfl | hw
      · cases a with
        | true =>
          obtain ⟨k, k1, k2, k3, -⟩ := (i2 rfl).mid j1
          exact ⟨k, k1, k2, k3⟩
        | false => exact absurd (i3 rfl).1 hne
      · have := j2 w hw
        rw [(lower_of_bounds i1.bounds w).1, (lower_of_bounds i1.bounds w).2] at this
        exact this hne
    · intro hab
      cases a with
      | true => exact ⟨v, by simp, (i2 rfl).mid j1⟩
      | false =>
        obtain ⟨-, rfl⟩ := i3 rfl
        obtain ⟨w, hw, hs⟩ := j3 (by simpa using hab)
        exact ⟨w, by simp [hw], hs⟩
    · intro hab
      simp only [Bool.or_eq_false_iff] at hab
      obtain ⟨rfl, rfl⟩ := hab
      obtain ⟨h5, rfl⟩ := i3 rfl
      obtain ⟨h6, rfl⟩ := j4 rfl
      refine ⟨fun w hw => ?_, rfl⟩
      rcases List.mem_cons.mp hw with rfl | hw
      · exact h5
      · exact h6 w hw

theorem splitFirst_mid : ∀ {vs : List Nat} {r : Bool} {W W' : World}, TI W → AllNested W → InRange W → splitFirst cc vs W = .ok (r, W') →
    Mid W W' ∧ (r = true → ∃ v ∈ vs, Split W W' v) ∧ (r = false → (∀ v ∈ vs, lowerOf W v = upperOf W v) ∧ W' = W)
  | [], r, W, W', ht, hn, hr, h => by
    obtain ⟨rfl, rfl⟩ := pure_iff.mp h
    exact ⟨Mid.refl ht hn, (by intro h; cases h), fun _ => ⟨by simp, rfl⟩⟩
  | v :: vs, r, W, W', ht, hn, hr, h => by
    unfold splitFirst at h
    obtain ⟨a, W1, h1, h2⟩ := SM.bind_ok h
    obtain ⟨i1, i2, i3⟩ := splitVar_mid ht hn hr h1
    cases a with
    | true =>
      simp only [if_true] at h2
      obtain ⟨_, W2, h3, h4⟩ := SM.bind_ok h2
      obtain ⟨rfl, rfl⟩ := pure_iff.mp h4
      obtain rfl := modify_iff.mp h3
      have m2 : Mid W1 { W1 with book.splitLast := v } := ⟨i1.ti.other rfl rfl rfl, i1.nested, rfl, fun _ _ h => h, le_refl _⟩
      exact ⟨i1.trans m2, fun _ => ⟨v, by simp, (i2 rfl).mid m2⟩, by intro h; cases h⟩
    | false =>
      obtain ⟨h5, rfl⟩ := i3 rfl
      obtain ⟨j1, j3, j4⟩ := splitFirst_mid ht hn hr h2
      refine ⟨j1, fun hr => ?_, fun hr => ?_⟩
      · obtain ⟨w, hw, hs⟩ := j3 hr
        exact ⟨w, by simp [hw], hs⟩
      · obtain ⟨h6, rfl⟩ := j4 hr
        refine ⟨fun w hw => ?_, rfl⟩
        rcases List.mem_cons.mp hw with rfl | hw
        · exact h5
        · exact h6 w hw

theorem fixed_out {v : Nat} (h : W.vars.length ≤ v) : lowerOf W v = upperOf W v := by
  unfold lowerOf upperOf
  have : (boundsOf W)[v]? = none := List.getElem?_eq_none (by unfold boundsOf; simpa using h)
  rw [this]; rfl

theorem checkFull_cases {b : Bool} {u : Unit} (hr : Reach W) (hb : InRange W) (h : solverCheckFull cc b W = .ok (u, W')) :
    (AllFixed W) ∨ (∃ v, Split W W' v) ∧ boundsOf W' = boundsOf W ∧
      (cc.conf.splitAll = true → ∀ v, lowerOf W v ≠ upperOf W v → ∃ k, lowerOf W v ≤ k ∧ k < upperOf W v ∧ HasLit W' v k) := by
  unfold solverCheckFull at h
  obtain ⟨W1, W2, h1, h2⟩ := SM.bind_ok h
  obtain ⟨rfl, rfl⟩ := get_iff.mp h1
  dsimp only at h2
  obtain ⟨s, W3, h3, h4⟩ := SM.bind_ok h2
  have fin : s = true → W' = W3 := by
    rintro rfl
    rcases whenS_iff.mp h4 with ⟨hc, -⟩ | ⟨-, e⟩
    · cases b <;> cases hc
    · exact e
  split_ifs at h3 with hsa
  · obtain ⟨j1, j2, j3, j4⟩ := splitEach_mid hr.ti hr.nested hb h3
    cases s with
    | true =>
      obtain rfl := fin rfl
      right
      obtain ⟨v, -, hs⟩ := j3 rfl
      refine ⟨⟨v, hs⟩, j1.bounds, fun _ v hv => j2 v ?_ hv⟩
      rw [List.mem_range]
      by_contra hc
      exact hv (fixed_out (by omega))
    | false =>
      left
      intro v
      by_cases hv : v < W2.vars.length
      · exact (j4 rfl).1 v (List.mem_range.mpr hv)
      · exact fixed_out (by omega)
  · obtain ⟨j1, j3, j4⟩ := splitFirst_mid hr.ti hr.nested hb h3
    cases s with
    | true =>
      obtain rfl := fin rfl
      right
      obtain ⟨v, -, hs⟩ := j3 rfl
      exact ⟨⟨v, hs⟩, j1.bounds, fun hc => absurd hc hsa⟩
    | false =>
      left
      intro v
      by_cases hv : v < W2.vars.length
      · refine (j4 rfl).1 v ?_
        rw [List.mem_append]
        have := List.take_append_drop W2.book.splitLast (List.range W2.vars.length)
        have hm : v ∈ List.range W2.vars.length := List.mem_range.mpr hv
        rw [← this, List.mem_append] at hm
        exact hm.symm
      · exact fixed_out (by omega)

/-- **C49** If some variable is not fixed at the final check of a reachable state, then afterwards there is an unfixed variable with
an order literal for a value that splits its domain properly; no bound is changed. If all variables are to be
split, this holds for each unfixed variable. -/
theorem C49_split {b : Bool} {u : Unit} (hr : Reach W) (hb : InRange W) (h : solverCheckFull cc b W = .ok (u, W')) {w : Nat} (hw : lowerOf W w ≠ upperOf W w) :
    boundsOf W' = boundsOf W ∧ (∃ v k, lowerOf W v ≤ k ∧ k < upperOf W v ∧ HasLit W' v k) ∧
      (cc.conf.splitAll = true → ∀ v, lowerOf W v ≠ upperOf W v → ∃ k, lowerOf W v ≤ k ∧ k < upperOf W v ∧ HasLit W' v k) := by
  rcases checkFull_cases hr hb h with h1 | ⟨⟨v, k, h1, h2, h3, -⟩, h4, h5⟩
  · exact absurd (h1 w) hw
  · exact ⟨h4, ⟨v, k, h1, h2, h3⟩, h5⟩

/-- **C24** Assume that all order literals have been taken into account (none splits the current domain of its variable). If the final
check of a reachable state succeeds without calling the clause creator, that is, without introducing a literal, then all variables are fixed and
all constraints whose literal is true hold for the reported values. -/
theorem C24_accepted {u : Unit} (hr : Reach W) (hb : InRange W) (hp : ∀ v k, HasLit W v k → k < lowerOf W v ∨ upperOf W v ≤ k)
    (h : solverCheckFull cc true W = .ok (u, W')) (hl : W'.log = W.log) :
    AllFixed W ∧ ∀ (n : Nat) (c : CState), W.book.cs[n]? = some c → c.alive = true → cc.isTrue W.log c.con.lit = true →
      conHolds (lowerOf W) W.book.minimizeBound c.con := by
  rcases checkFull_cases hr hb h with h1 | ⟨⟨v, k, h1, h2, h3, h4⟩, -, -⟩
  · exact ⟨h1, (C24_check_full h1 h).2⟩
  · exfalso
    have := h4 (fun hh => by rcases hp v k hh with h | h <;> omega)
    rw [hl] at this
    exact lt_irrefl _ this

/-- The width decreases with each split. -/
theorem width_split {bs bs' : List (Int × Int)} (h : Narrower bs bs') : width bs' ≤ width bs ∧ (SplitAt bs bs' → width bs' < width bs) := by
  induction h with
  | nil =>
    refine ⟨le_refl _, ?_⟩
    rintro ⟨v, a, b, k, h, -⟩
    cases h
  | @cons a b as bs hab _ ih =>
    obtain ⟨h1, h2, h3⟩ := hab
    refine ⟨by unfold width; have := ih.1; omega, ?_⟩
    rintro ⟨v, x, y, k, e1, e2, k1, k2, k3⟩
    cases v with
    | zero =>
      injection e1 with e1; subst e1
      injection e2 with e2; subst e2
      unfold width
      have := ih.1
      omega
    | succ v =>
      have := ih.2 ⟨v, x, y, k, e1, e2, k1, k2, k3⟩
      unfold width
      omega

/-- **C49** The number of splits along any branch is bounded by the sum of the sizes of the domains. -/
theorem C49_terminates {n : Nat} {a b : List (Int × Int)} (h : Splits n a b) : n + width b ≤ width a := by
  induction h with
  | nil => omega
  | cons h1 h2 _ ih =>
    have := (width_split h1).2 h2
    omega

/-- A state in which a domain has to be split, and one in which all variables are fixed. -/
def unsplit : World := (tryRun [.addVar 0 10, .addVar 3 3, .addConstraint (.sum 1 18 [(1, 0), (1, 1)]), .check (assigns 0 []) true 9] (World.init 2)).getD (World.init 2)
def allFixed : World := (tryRun [.addVar 7 7, .addVar 3 3, .addConstraint (.sum 1 18 [(1, 0), (1, 1)]), .check (assigns 0 []) true 9] (World.init 2)).getD (World.init 2)

/-- The hypotheses of `C49_split` are met. -/
example : Reach unsplit ∧ (∃ W', solverCheckFull (assigns 0 []) true unsplit = .ok ((), W')) ∧ lowerOf unsplit 0 ≠ upperOf unsplit 0 := by
  refine ⟨⟨2, _, by decide, tryRun_getD (by decide +kernel)⟩, ?_, by decide +kernel⟩
  have : (solverCheckFull (assigns 0 []) true unsplit).toOption.isSome = true := by decide +kernel
  cases h : solverCheckFull (assigns 0 []) true unsplit with
  | error e => rw [h] at this; cases this
  | ok p => exact ⟨p.2, rfl⟩

/-- The hypotheses of `C24_accepted` are met, and the constraint is checked. -/
example : Reach allFixed ∧ InRange allFixed ∧ (∀ v k, HasLit allFixed v k → k < lowerOf allFixed v ∨ upperOf allFixed v ≤ k) ∧
    solverCheckFull (assigns 0 []) true allFixed = .ok ((), allFixed) ∧ allFixed.book.cs.map (·.alive) = [true] := by
  refine ⟨⟨2, _, by decide, tryRun_getD (by decide +kernel)⟩, ?_, ?_, by decide +kernel, by decide +kernel⟩
  · have e : boundsOf allFixed = [(7, 7), (3, 3)] := by decide +kernel
    intro v
    unfold lowerOf upperOf
    rw [e]
    match v with
    | 0 => exact ⟨by decide, by decide⟩
    | 1 => exact ⟨by decide, by decide⟩
    | _ + 2 => constructor <;> (simp only [List.getElem?_cons_succ, List.getElem?_nil, Option.elim_none]; decide)
  · rintro v k ⟨vs, l, h1, h2⟩
    have e : allFixed.vars.all (fun vs => vs.with.isEmpty) = true := by decide +kernel
    rw [List.all_eq_true] at e
    have := e vs (List.mem_of_getElem? h1)
    rw [List.isEmpty_iff] at this
    rw [this] at h2; cases h2

/-- The hypotheses of `C52_disjoint_check` are met by the intervals `[7, 9)` and `[3, 7)`, which are accepted, and by `[7, 9)` and
`[3, 8)`, which are rejected. -/
example : (∀ e ∈ [((2 : Int), 0), (4, 1)], ∃ vs, allFixed.vars[e.2]? = some vs ∧ vs.lower = vs.upper ∧ Limits.val.Fits (vs.upper + e.1)) ∧
    (disjointCheckFull [(2, 0), (4, 1)] [] allFixed).toOption.isSome = true ∧ (disjointCheckFull [(2, 0), (5, 1)] [] allFixed).toOption.isSome = false := by
  refine ⟨?_, by decide +kernel, by decide +kernel⟩
  intro e he
  have e0 : allFixed.vars = [{ lower := 7, upper := 7 }, { lower := 3, upper := 3 }] := by decide +kernel
  rw [e0]
  simp only [List.mem_cons, List.not_mem_nil, or_false] at he
  rcases he with rfl | rfl <;> exact ⟨_, rfl, rfl, by decide⟩

/-- Two splits of the domain `[0, 10]`. -/
example : Splits 2 [(0, 10)] [(3, 5)] :=
  .cons (b := [(0, 5)]) (.cons (by decide) .nil) ⟨0, (0, 10), (0, 5), 5, rfl, rfl, by decide, by decide, by decide⟩
    (.cons (.cons (by decide) .nil) ⟨0, (0, 5), (3, 5), 2, rfl, rfl, by decide, by decide, by decide⟩ (.nil _))

end Clingcon.Props
