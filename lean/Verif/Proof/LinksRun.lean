import Verif.Proof.Links
import Verif.Proof.Inv

/-! All functions of the solver keep tables and the map from literals in agreement. -/
set_option linter.unusedSimpArgs false
namespace Clingcon
open Spec VarState

variable {W W' : World}

theorem offset_litAt {i : Nat} {s : Bool} : mapOffset (litAt i s) = i := by
  unfold mapOffset litAt; split <;> omega

theorem entry_get {mp : List LitmapEntry} {i : Nat} (h : (entryAt mp ((i + 1 : Nat) : Int)).prev ≠ 0) : mp[i]? = some (entryAt mp ((i + 1 : Nat) : Int)) := by
  have hi : mapOffset ((i + 1 : Nat) : Int) = i := by unfold mapOffset; omega
  unfold entryAt at h ⊢
  rw [if_neg (by omega), hi] at h ⊢
  rw [List.getD_eq_getElem?_getD] at h ⊢
  cases hm : mp[i]? with
  | none => rw [hm] at h; exact absurd rfl h
  | some e => rfl

theorem TI.ti_makeFact {olit fact : Int} {u : Unit} (hi : TI W) (hf : fact.natAbs = 1) (h : makeFact olit fact W = .ok (u, W')) : TI W' := by
  unfold makeFact at h
  simp only [smok] at h
  obtain ⟨e, W1, ⟨rfl, rfl⟩, h⟩ := h
  rcases h with ⟨hv, h⟩ | ⟨-, rfl⟩
  · obtain ⟨vs, W2, ⟨g1, rfl⟩, old, W3, ⟨g2, rfl⟩, _, W4, ⟨g3, rfl⟩, vs', W5, ⟨g4, rfl⟩, _, W6, rfl, _, W7,
      ⟨ps, vs2, g5, rfl, rfl⟩, e2, W8, ⟨rfl, rfl⟩, _, W9, rfl, rfl⟩ := h
    obtain ⟨v0, v1, v2, v3⟩ := entry_valid hv
    have hw := hi.wf _ _ g1
    have hs := setLiteral_eff hw (by rintro rfl; cases hf) g4
    rw [List.getElem?_set_self (List.getElem?_eq_some_iff.mp g1).1] at g5
    injection g5 with g5
    subst g5
    have hm : ((entryAt W5.litmap olit).value, olit) ∈ vs.with := getLiteral_mem hw (by rw [g2]; simpa using g3)
    have hmem : ((entryAt W5.litmap olit).value, fact) ∈ vs'.with := (hs.mem _ _).mpr (by rw [if_pos rfl])
    have key := hi.retire (lit := fact) g1 hs.wf hs.wf hs.off hs.off ⟨fun _ => hmem, fun h0 => by rw [h0] at hf; cases hf⟩ (by omega) hm
      (e0 := { (linkP vs' fact (entryAt W5.litmap olit).value W5.litmap).getD (mapOffset olit) {} with prev := 0 }) rfl ⟨_, v1, rfl, rfl⟩
    exact key.other rfl rfl rfl
  · exact hi

theorem TI.ti_dropFact {f x : Int} {v : Nat} {u : Unit} (hi : TI W) (h : dropFact f v x W = .ok (u, W')) : TI W' := by
  unfold dropFact at h
  simp only [smok] at h
  obtain ⟨vs, W1, ⟨h1, rfl⟩, old, W2, ⟨h2, rfl⟩, _, W3, ⟨h3, rfl⟩, _, W4, ⟨ps, vs4, h4, rfl, rfl⟩, vs', W5, ⟨h5, rfl⟩, rfl⟩ := h
  rw [h1] at h4
  injection h4 with h4
  subst h4
  have hw := hi.wf _ _ h1
  have hd := unsetLiteral_eff hw h5
  have hm : (x, (if f = TRUE_LIT then TRUE_LIT else -TRUE_LIT)) ∈ vs.with := getLiteral_mem hw (by rw [h2]; simpa using h3)
  have key := hi.fact (u := vs) (lit := 0) h1 hd.wf hw hd.off (fun a b _ => Iff.rfl)
    ⟨fun h => absurd rfl h, fun _ b hb => ((hd.mem _ _).mp hb).1 rfl⟩ (by decide) (fun l hl => by
      rw [with_unique hw hl hm]; split_ifs <;> rfl)
  exact key.other rfl rfl rfl

theorem TI.ti_dropLit {i : Nat} {e : LitmapEntry} {u : Unit} (hi : TI W) (he : W.litmap[i]? = some e) (hp : e.prev ≠ 0)
    (h : dropLit (i + 1 : Nat) e W = .ok (u, W')) : TI W' := by
  unfold dropLit at h
  simp only [smok] at h
  obtain ⟨vs, W1, ⟨g1, rfl⟩, vs', W2, ⟨g2, rfl⟩, _, W3, rfl, _, W4, ⟨ps, vs2, g3, rfl, rfl⟩, rfl⟩ := h
  have hw := hi.wf _ _ g1
  have hd := unsetLiteral_eff hw g2
  rw [List.getElem?_set_self (List.getElem?_eq_some_iff.mp g1).1] at g3
  injection g3 with g3
  subst g3
  have hm := hi.mem i e he hp vs g1
  have key := hi.retire (lit := 0) g1 hd.wf hd.wf hd.off hd.off ⟨fun h => absurd rfl h, fun _ b hb => ((hd.mem _ _).mp hb).1 rfl⟩ (by decide) hm
    (e0 := { (linkP vs' 0 e.value W2.litmap).getD i {} with prev := 0 }) rfl ⟨e, by rw [offset_litAt]; exact he, rfl, rfl⟩
  rw [offset_litAt] at key
  refine key.other rfl ?_ rfl
  dsimp only
  rw [show mapOffset ((i + 1 : Nat) : Int) = i by unfold mapOffset; omega]

theorem ti_updateStep {m : Nat} : ∀ {n o : Nat}, Kw TI (updateStep m n o)
  | 0, o => Kw.pure
  | n + 1, o => by
    refine ⟨fun W a W' h hi => ?_⟩
    unfold updateStep at h
    simp only [smok] at h
    obtain ⟨e, W1, ⟨rfl, rfl⟩, _, W2, h2, h3⟩ := h
    refine (ti_updateStep (n := n)).kw _ _ _ h3 ?_
    rcases h2 with ⟨hc, h2⟩ | ⟨-, rfl⟩
    · have hp : (entryAt W1.litmap ((o + 1 : Nat) : Int)).prev ≠ 0 := by
        simp only [LitmapEntry.invalid, Bool.and_eq_true] at hc
        simpa using hc.1
      exact hi.ti_dropLit (entry_get hp) hp h2
    · exact hi

theorem TI.newBounds {v : Nat} {vs vs' : VarState} (h : TI W) (hv : W.vars[v]? = some vs)
    (ht : vs'.table = vs.table) (h1 : vs.minBound ≤ vs'.minBound) (h2 : vs'.maxBound ≤ vs.maxBound) : TI { W with vars := W.vars.set v vs' } :=
  h.sameTab hv (wf_bounds (h.wf _ _ hv) ht h1 h2) (fun a b => by rw [with_congr ht])

theorem TI.ti_updateUpper {lvl var : Nat} {value : Int} {u : Unit} (hi : TI W) (h : updateUpper lvl var value W = .ok (u, W')) : TI W' := by
  unfold updateUpper at h
  simp only [smok] at h
  obtain ⟨vs, W1, ⟨hv, rfl⟩, _, W2, h2, _, W3, ⟨ha, rfl⟩, _, W4, rfl, rfl⟩ := h
  have hw2 : TI W3 ∧ W3.vars[var]? = some vs := by
    rcases h2 with ⟨-, rfl⟩ | ⟨-, rfl⟩
    · exact ⟨hi.other rfl rfl rfl, hv⟩
    · exact ⟨hi, hv⟩
  obtain ⟨i2, v2⟩ := hw2
  simp only [decide_eq_true_eq] at ha
  have key := i2.newBounds v2 (vs' := { (if (decide (lvl > 0) && !vs.pushedUpper lvl) = true then vs.pushUpper lvl else vs) with upper := value }) ?_ ?_ ?_
  · exact key.other rfl rfl rfl
  · split_ifs <;> rfl
  · split_ifs <;> exact le_refl _
  · split_ifs with hc
    · rw [max_of_stack (by simp [VarState.pushUpper]), VarState.pushUpper_max]
    · rw [if_neg hc] at ha
      exact VarState.maxBound_mono (fun _ => ha)

theorem TI.ti_updateLower {lvl var : Nat} {value : Int} {u : Unit} (hi : TI W) (h : updateLower lvl var value W = .ok (u, W')) : TI W' := by
  unfold updateLower at h
  simp only [smok] at h
  obtain ⟨vs, W1, ⟨hv, rfl⟩, _, W2, h2, _, W3, ⟨ha, rfl⟩, _, W4, rfl, rfl⟩ := h
  have hw2 : TI W3 ∧ W3.vars[var]? = some vs := by
    rcases h2 with ⟨-, rfl⟩ | ⟨-, rfl⟩
    · exact ⟨hi.other rfl rfl rfl, hv⟩
    · exact ⟨hi, hv⟩
  obtain ⟨i2, v2⟩ := hw2
  simp only [decide_eq_true_eq] at ha
  have key := i2.newBounds v2 (vs' := { (if (decide (lvl > 0) && !vs.pushedLower lvl) = true then vs.pushLower lvl else vs) with lower := value + 1 }) ?_ ?_ ?_
  · exact key.other rfl rfl rfl
  · split_ifs <;> rfl
  · split_ifs with hc
    · exact le_of_eq ((min_of_stack (vs := vs.pushLower lvl) (by simp [VarState.pushLower])).trans (VarState.pushLower_min vs lvl)).symm
    · rw [if_neg hc] at ha
      exact VarState.minBound_mono (fun _ => ha)
  · split_ifs <;> exact le_refl _

theorem TI.ti_undoLowerVar {v : Nat} {u : Unit} (hi : TI W) (h : undoLowerVar v W = .ok (u, W')) : TI W' := by
  unfold undoLowerVar at h
  simp only [smok] at h
  obtain ⟨vs, W1, ⟨hv, rfl⟩, vs', W2, ⟨hp, rfl⟩, _, W3, rfl, rfl⟩ := h
  have hne : vs.lowerStack ≠ [] := by intro e; unfold VarState.popLower at hp; rw [e] at hp; cases hp
  obtain ⟨x, e, h1, h2, h3⟩ := popLower_ok hne
  rw [e] at hp
  injection hp with hp
  subst hp
  exact (hi.newBounds hv h3 (by omega) (by omega)).other rfl rfl rfl

theorem TI.ti_undoUpperVar {v : Nat} {u : Unit} (hi : TI W) (h : undoUpperVar v W = .ok (u, W')) : TI W' := by
  unfold undoUpperVar at h
  simp only [smok] at h
  obtain ⟨vs, W1, ⟨hv, rfl⟩, vs', W2, ⟨hp, rfl⟩, _, W3, rfl, rfl⟩ := h
  have hne : vs.upperStack ≠ [] := by intro e; unfold VarState.popUpper at hp; rw [e] at hp; cases hp
  obtain ⟨x, e, h1, h2, h3⟩ := popUpper_ok hne
  rw [e] at hp
  injection hp with hp
  subst hp
  exact (hi.newBounds hv h3 (by omega) (by omega)).other rfl rfl rfl

theorem ti_prim : Prim TI where
  book _ _ _ h := h.other rfl rfl rfl
  event _ _ _ h := h.other rfl rfl rfl
  levels _ _ h := h.other rfl rfl rfl
  clear _ h := h.other rfl rfl rfl
  literal _ _ _ := ⟨fun _ _ _ h hi => (getLiteral_eff hi.wf (by have := hi.pos; omega) h).ti hi⟩
  updLiteral _ _ _ _ := ⟨fun _ _ _ h hi => by
    rcases updateLiteral_eff hi.wf (by have := hi.pos; omega) h with ⟨-, t, -, h⟩ | h
    · exact h.ti hi
    · exact h.ti hi⟩
  mkFact _ _ hb := ⟨fun _ _ _ h hi => hi.ti_makeFact hb h⟩
  drFact _ _ _ := ⟨fun _ _ _ h hi => hi.ti_dropFact h⟩
  step _ _ _ := ti_updateStep
  updLower h _ hi := hi.ti_updateLower h
  updUpper h _ hi := hi.ti_updateUpper h
  popLower _ := ⟨fun _ _ _ h hi => hi.ti_undoLowerVar h⟩
  popUpper _ := ⟨fun _ _ _ h hi => hi.ti_undoUpperVar h⟩

theorem TI.ti_addVar {lo hi : Int} {a : Nat} (ht : TI W) (h : addVar lo hi W = .ok (a, W')) : TI W' := by
  injection h with h
  injection h with _ h
  subst h
  have old : ∀ {v : Nat} {vs : VarState}, W.vars[v]? = some vs → (W.vars ++ [{ lower := lo, upper := hi }])[v]? = some vs := by
    intro v vs h
    rw [List.getElem?_append_left (List.getElem?_eq_some_iff.mp h).1]; exact h
  have new : ∀ {v : Nat} {vs : VarState}, (W.vars ++ [{ lower := lo, upper := hi }])[v]? = some vs → W.vars[v]? = some vs ∨ vs = { lower := lo, upper := hi } := by
    intro v vs h
    rw [List.getElem?_append] at h
    split_ifs at h with h1
    · exact Or.inl h
    · right
      have := List.mem_of_getElem? h
      simpa using this
  refine ⟨?_, ht.pos, ht.small, ?_, ?_, ?_⟩
  · intro v vs h
    rcases new h with h | rfl
    · exact ht.wf _ _ h
    · exact ⟨List.Pairwise.nil, by simp⟩
  · intro i e he hp
    obtain ⟨h1, vs, h2, h3⟩ := ht.link i e he hp
    exact ⟨h1, vs, old h2, h3⟩
  · intro i e he hp vs hv
    obtain ⟨h1, vs', h2, -⟩ := ht.link i e he hp
    rw [old h2] at hv
    injection hv with hv
    subst hv
    exact ht.mem i e he hp _ h2
  · intro v vs k l hv hm hl
    rcases new hv with h | rfl
    · exact ht.own v vs k l h hm hl
    · cases hm

theorem canReuse_none {var : Nat} {value : Int} {s : Bool} (hw : AllWF W) (h : canReuse var value s W = .ok (true, W')) :
    W' = W ∧ ∃ vs, W.vars[var]? = some vs ∧ ∀ l, (value, l) ∉ vs.with := by
  unfold canReuse at h
  simp only [smok] at h
  obtain ⟨vs, W1, ⟨hv, rfl⟩, h⟩ := h
  rcases h with ⟨⟨-, h1, h2⟩, b, W2, ⟨hb, rfl⟩, hr, rfl⟩ | ⟨-, h, -⟩
  · obtain ⟨b', e1, e2⟩ := hasLiteral_ok (hw _ _ hv) (Or.inl ⟨h1, h2⟩)
    rw [hb] at e1
    injection e1 with e1
    subst e1
    refine ⟨rfl, vs, hv, fun l hl => ?_⟩
    rw [e2.mpr ⟨l, hl⟩] at hr
    cases hr
  · cases h

theorem TI.ti_useFact {t : Bool} {var : Nat} {value : Int} {r : Bool} {vs : VarState} (hi : TI W) (hv : W.vars[var]? = some vs) (hno : ∀ l, (value, l) ∉ vs.with)
    (h : useFact t var value W = .ok (r, W')) : TI W' := by
  unfold useFact at h
  simp only [smok] at h
  obtain ⟨ps, W1, ⟨vs1, g1, rfl, rfl⟩, _, W2, rfl, vs2, W3, ⟨g2, rfl⟩, vs', W4, ⟨g3, rfl⟩, _, W5, rfl, -, rfl⟩ := h
  rw [hv] at g1; injection g1 with g1; subst g1
  dsimp only at g2
  rw [hv] at g2; injection g2 with g2; subst g2
  have hw := hi.wf _ _ hv
  have h1 : (if t then TRUE_LIT else -TRUE_LIT : Int).natAbs = 1 := by cases t <;> rfl
  have hs := setLiteral_eff hw (by intro h0; rw [h0] at h1; cases h1) g3
  have hmem : (value, if t then TRUE_LIT else -TRUE_LIT) ∈ vs'.with := (hs.mem value _).mpr (by rw [if_pos rfl])
  have key := hi.fact (u := vs) (lit := if t then TRUE_LIT else -TRUE_LIT) hv hs.wf hw hs.off (fun _ _ _ => Iff.rfl)
    ⟨fun _ => hmem, fun h0 => by rw [h0] at h1; cases h1⟩ (by omega) (fun l hl => absurd hl (hno l))
  exact key.other rfl rfl rfl

/-- The literal chosen by `freeLit` is not an order literal and is known. -/
theorem TI.ti_freeLit {cc : CC} {lit : Int} {var : Nat} {value : Int} {o : Option Int} (hi : TI W) (hl : 1 < lit.natAbs) (hs : (lit.natAbs : Int) < W.nextLit)
    (h : freeLit cc lit var value W = .ok (o, W')) : TI W' ∧ W'.vars = W.vars ∧ ∀ l, o = some l → 1 < l.natAbs ∧ (l.natAbs : Int) < W'.nextLit ∧
      ∀ e, W'.litmap[mapOffset l]? = some e → e.prev = 0 := by
  unfold freeLit at h
  simp only [smok] at h
  obtain ⟨e, W1, ⟨rfl, rfl⟩, h⟩ := h
  have hp := hi.pos
  have hsm := hi.small
  rcases h with ⟨hinv, rfl, rfl⟩ | ⟨-, l, W2, ⟨rfl, rfl⟩, _, W3, rfl, h⟩
  · refine ⟨hi, rfl, ?_⟩
    rintro l hl'
    injection hl' with hl'
    subst hl'
    refine ⟨hl, hs, fun e he => ?_⟩
    have : entryAt W'.litmap lit = e := by
      rw [entryAt, if_neg (by omega), List.getD_eq_getElem?_getD, he]; rfl
    rw [this] at hinv
    simpa [LitmapEntry.invalid] using hinv
  · have t1 : TI { W1 with nextLit := W1.nextLit + 1 } := by
      have := hi.grow (n := 0) (k := W1.nextLit + 1) (by omega) (by omega)
      refine this.other rfl ?_ rfl
      unfold growTo; simp
    have fin : ∀ (W2 : World), W2.litmap = W1.litmap → W2.nextLit = W1.nextLit + 1 → ∀ l, some W1.nextLit = some l → 1 < l.natAbs ∧ (l.natAbs : Int) < W2.nextLit ∧
        ∀ e, W2.litmap[mapOffset l]? = some e → e.prev = 0 := by
      intro W2 h1 h2 l hl'
      injection hl' with hl'
      subst hl'
      refine ⟨by omega, by rw [h2]; omega, fun e he => ?_⟩
      rw [h1] at he
      have := (List.getElem?_eq_some_iff.mp he).1
      unfold mapOffset at this
      omega
    obtain ⟨b, W4, ⟨rfl, rfl⟩, h⟩ := h
    rcases h with ⟨-, rfl, rfl⟩ | ⟨-, b, W5, ⟨rfl, rfl⟩, h⟩
    · exact ⟨t1.other rfl rfl rfl, rfl, fun l hl => by cases hl⟩
    rcases h with ⟨-, rfl, rfl⟩ | ⟨-, rfl, rfl⟩
    · exact ⟨t1.other rfl rfl rfl, rfl, fun l hl => by cases hl⟩
    · exact ⟨t1.other rfl rfl rfl, rfl, fin _ rfl rfl⟩

theorem TI.ti_useLit {cc : CC} {lit : Int} {var : Nat} {value : Int} {r : Bool} {vs : VarState} (hi : TI W) (hl : 1 < lit.natAbs) (hs : (lit.natAbs : Int) < W.nextLit)
    (hv : W.vars[var]? = some vs) (hno : ∀ l, (value, l) ∉ vs.with) (h : useLit cc lit var value W = .ok (r, W')) : TI W' := by
  unfold useLit at h
  rw [bind_iff] at h
  obtain ⟨o, W1, h1, h⟩ := h
  obtain ⟨t1, ev, hf⟩ := hi.ti_freeLit hl hs h1
  cases o with
  | none => obtain ⟨-, rfl⟩ := pure_iff.mp h; exact t1
  | some l =>
    obtain ⟨l1, l2, l3⟩ := hf l rfl
    simp only [smok] at h
    obtain ⟨_, W2, rfl, _, W3, rfl, _, W4, ⟨-, vs1, g1, -, rfl⟩, vs2, W5, ⟨g2, rfl⟩, vs', W6, ⟨g3, rfl⟩, _, W7, rfl, -, rfl⟩ := h
    dsimp only at g1 g2
    rw [ev, hv] at g1 g2
    injection g1 with g1; subst g1
    injection g2 with g2; subst g2
    have hv1 : W1.vars[var]? = some vs := by rw [ev]; exact hv
    have hw := hi.wf _ _ hv
    have hs' := setLiteral_eff hw (by rintro rfl; simp at l1) g3
    have t2 : TI { W1 with litmap := growTo (mapOffset l + 1) W1.litmap, nextLit := W1.nextLit } := t1.grow (le_refl _) (by unfold mapOffset; omega)
    have hmem : (value, l) ∈ vs'.with := (hs'.mem value l).mpr (by rw [if_pos rfl])
    have key := t2.new (u := vs) (l := l) hv1 hs'.wf hw hs'.off (fun _ _ _ => Iff.rfl) hmem hno l1
      (by dsimp only; rw [growTo_length]; omega) (by
        intro e he
        by_contra hp
        exact hp (l3 e (growTo_get he hp)))
    exact key.other rfl rfl rfl

theorem TI.ti_addSimple {cc : CC} {lit co rhs : Int} {var : Nat} {s r : Bool} (hi : TI W) (h0 : lit ≠ 0) (hs : (lit.natAbs : Int) < W.nextLit)
    (ht : cc.value W.log TRUE_LIT = some true) (h : addSimple cc lit co var rhs s W = .ok (r, W')) : TI W' := by
  unfold addSimple at h
  rw [bind_iff] at h
  obtain ⟨f, W0, h0', h⟩ := h
  obtain ⟨rfl, rfl⟩ := qFalse_iff.mp h0'
  split at h
  · obtain ⟨-, rfl⟩ := pure_iff.mp h; exact hi
  rw [bind_iff] at h
  obtain ⟨truth, W1, h1, h⟩ := h
  obtain ⟨ht1, rfl⟩ := qValue_iff.mp h1
  dsimp only at h
  rw [bind_iff] at h
  obtain ⟨direct, W2, h2, h⟩ := h
  have hP := ti_prim
  cases direct with
  | true =>
    obtain ⟨rfl, vs, hv, hno⟩ := canReuse_none hi.wf h2
    rw [if_pos rfl] at h
    cases truth with
    | some t => exact hi.ti_useFact hv hno h
    | none =>
      dsimp only at h
      have hne : lit.natAbs ≠ 1 := by
        intro hn
        have ha : cc.atom W2.log 1 = some true := by
          unfold CC.value at ht
          rw [if_pos (by decide)] at ht
          exact ht
        unfold CC.value at ht1
        have e : (if co > 0 then lit else -lit).natAbs = 1 := by split_ifs <;> omega
        rw [e, ha] at ht1
        split_ifs at ht1 <;> cases ht1
      refine hi.ti_useLit (lit := if co < 0 then -lit else lit) ?_ ?_ hv hno h <;> split_ifs <;> omega
  | false =>
    have hi2 := (kw_canReuse hP.toPrim0).kw _ _ _ h2 hi
    rw [if_neg (by decide)] at h
    refine Kw.kw (P := TI) ?_ _ _ _ h hi2
    kw_auto

theorem ti_newLit (h : TI W) {e : SEv} : TI { W with nextLit := W.nextLit + 1, log := e :: W.log } := by
  obtain ⟨h1, h2, h3, h4, h5, h6⟩ := h
  exact ⟨h1, by show 1 < W.nextLit + 1; omega, by show (W.litmap.length : Int) < W.nextLit + 1; omega, h4, h5, h6⟩

theorem TI.exec {op : Op} {r : Bool} (hi : TI W) (hp : op.pre W) (h : op.exec W = .ok (r, W')) : TI W' := by
  have hP := ti_prim
  cases op with
  | addVar lo up =>
    unfold Op.exec at h
    simp only [discard_iff, bind_iff, pure_iff] at h
    obtain ⟨_, W1, ⟨a, h1⟩, -, rfl⟩ := h
    exact hi.ti_addVar h1
  | simple cc l co v r s => exact hi.ti_addSimple hp.1 hp.2.1 hp.2.2 h
  | fresh => rw [(fresh_iff.mp h).2]; exact ti_newLit hi
  | post e => rw [(post_iff.mp h).2]; exact hi.other rfl rfl rfl
  | _ => refine (kw_exec hP.toPrimU (fun W n h => h.other rfl rfl rfl) ?_ ?_ ?_ ?_).kw _ _ _ h hi <;> intros <;> first | contradiction | (intro e; cases e)

theorem TI.init {n : Int} (h : 1 < n) : TI (World.init n) := by
  refine ⟨?_, h, ?_, ?_, ?_, ?_⟩
  · intro v vs hv; cases hv
  · show (0 : Int) < n; omega
  · intro i e he; cases he
  · intro i e he; cases he
  · intro v vs k l hv; cases hv

theorem TI.run {ops : List Op} (h : Run ops W W') (hi : TI W) : TI W' := by
  induction h with
  | nil => exact hi
  | cons hp hx _ ih => exact ih (hi.exec hp hx)

theorem Reach.ti (h : Reach W) : TI W := by
  obtain ⟨n, ops, hn, h⟩ := h
  exact TI.run h (TI.init hn)

end Clingcon
