import Verif.Proof.GivenOps

/-! Facts among the order literals are recorded until they have been integrated. -/
set_option linter.unusedSimpArgs false
set_option linter.unusedVariables false
namespace Clingcon
open Spec VarState

variable {α γ : Type} {W W0 W' : World} {cc : CC} {r : Bool}

/-- Facts among the order literals are in a list, and the recorded facts are given. -/
structure FP (gs M : List (Int × Nat × Int × Int)) (W : World) : Prop where
  ti : TI W
  fm : W.factmap = M
  inn : ∀ v k l, OrdLit W v k l → l.natAbs = 1 → ∃ p, (l, v, k, p) ∈ gs

/-- Facts among the order literals are recorded. -/
def FI (W : World) : Prop := FP W.factmap W.factmap W

variable {gs M : List (Int × Nat × Int × Int)}

theorem FP.of (h : FP gs M W) (ti : TI W') (hm : W'.factmap = W.factmap) (ho : ∀ v k l, OrdLit W' v k l → l.natAbs = 1 → OrdLit W v k l) : FP gs M W' :=
  ⟨ti, hm.trans h.fm, fun v k l hl h1 => h.inn v k l (ho v k l hl h1) h1⟩

theorem GotLit.factmap {var : Nat} {x l : Int} (h : GotLit W var x l W') : W'.factmap = W.factmap := by cases h <;> rfl

theorem FP.got {var : Nat} {x l : Int} (h : FP gs M W) (g : GotLit W var x l W') : FP gs M W' := by
  refine h.of (g.ti h.ti) g.factmap (fun v k m hm h1 => ?_)
  rcases g.ord.2.2 v k m hm with hq | hq
  · exact hq
  · have := h.ti.pos
    omega

theorem propagateVariables_log {s : Int} : ∀ {ls : List Int} {m : Int} {W W' : World} {r : Bool}, propagateVariables cc s m ls W = .ok (r, W') →
    ∃ log, W' = { W with log := log }
  | [], m, W, W', r, h => by
    obtain ⟨-, rfl⟩ := pure_iff.mp h
    exact ⟨W'.log, rfl⟩
  | l :: ls, m, W, W', r, h => by
    unfold propagateVariables at h
    simp only [smok] at h
    obtain ⟨b, W1, ⟨rfl, rfl⟩, h⟩ := h
    rcases h with ⟨-, -, rfl⟩ | ⟨-, b, W2, ⟨rfl, rfl⟩, h⟩
    · exact ⟨W'.log, rfl⟩
    rcases h with ⟨-, -, rfl⟩ | ⟨-, b, W2, ⟨rfl, rfl⟩, h⟩
    · exact ⟨_, rfl⟩
    rcases h with ⟨-, h⟩ | ⟨-, h⟩
    · obtain ⟨log, e⟩ := propagateVariables_log h
      exact ⟨log, e⟩
    · obtain ⟨log, e⟩ := propagateVariables_log h
      exact ⟨log, e⟩

theorem FP.updateUpperLit {lvl v : Nat} {l x s : Int} (hf : FP gs M W) (h : Clingcon.updateUpperLit cc lvl v l x s W = .ok (r, W')) : FP gs M W' := by
  unfold Clingcon.updateUpperLit at h
  rw [bind_iff] at h
  obtain ⟨vs, W1, h1, h⟩ := h
  obtain ⟨hv, rfl⟩ := getVar_iff.mp h1
  split_ifs at h with hc
  · rw [bind_iff] at h
    obtain ⟨m, W2, h2, h⟩ := h
    have f2 := hf.got (getLiteral_eff hf.ti.wf (by have := hf.ti.pos; omega) h2)
    simp only [smok] at h
    obtain ⟨b, W3, ⟨-, rfl⟩, _, W4, h4, -, rfl⟩ := h
    rcases h4 with ⟨-, c, -, rfl⟩ | ⟨-, rfl⟩ <;> exact f2.of (f2.ti.other rfl rfl rfl) rfl (fun _ _ _ h _ => h)
  · rw [bind_iff] at h
    obtain ⟨_, W2, h2, h⟩ := h
    have f2 : FP gs M W2 := by
      rcases whenS_iff.mp h2 with ⟨-, h2⟩ | ⟨-, rfl⟩
      · obtain ⟨-, -, e3, e4⟩ := updateUpper_ord h2
        exact hf.of (hf.ti.ti_updateUpper h2) e3 (fun v k l hl _ => (e4 v k l).mp hl)
      · exact hf
    simp only [smok] at h
    obtain ⟨vs, W3, ⟨-, rfl⟩, _, W4, ⟨-, rfl⟩, b, W5, ⟨rfl, rfl⟩, h⟩ := h
    rcases h with ⟨-, -, rfl⟩ | ⟨-, h⟩
    · exact f2
    · obtain ⟨log, rfl⟩ := propagateVariables_log h
      exact f2.of (f2.ti.other rfl rfl rfl) rfl (fun _ _ _ h _ => h)

theorem FP.updateLowerLit {lvl v : Nat} {l x s : Int} (hf : FP gs M W) (h : Clingcon.updateLowerLit cc lvl v l x s W = .ok (r, W')) : FP gs M W' := by
  unfold Clingcon.updateLowerLit at h
  rw [bind_iff] at h
  obtain ⟨vs, W1, h1, h⟩ := h
  obtain ⟨hv, rfl⟩ := getVar_iff.mp h1
  split_ifs at h with hc
  · rw [bind_iff] at h
    obtain ⟨m, W2, h2, h⟩ := h
    have f2 := hf.got (getLiteral_eff hf.ti.wf (by have := hf.ti.pos; omega) h2)
    simp only [smok] at h
    obtain ⟨b, W3, ⟨-, rfl⟩, _, W4, h4, -, rfl⟩ := h
    rcases h4 with ⟨-, c, -, rfl⟩ | ⟨-, rfl⟩ <;> exact f2.of (f2.ti.other rfl rfl rfl) rfl (fun _ _ _ h _ => h)
  · rw [bind_iff] at h
    obtain ⟨_, W2, h2, h⟩ := h
    have f2 : FP gs M W2 := by
      rcases whenS_iff.mp h2 with ⟨-, h2⟩ | ⟨-, rfl⟩
      · obtain ⟨-, -, e3, e4⟩ := updateLower_ord h2
        exact hf.of (hf.ti.ti_updateLower h2) e3 (fun v k l hl _ => (e4 v k l).mp hl)
      · exact hf
    simp only [smok] at h
    obtain ⟨vs, W3, ⟨-, rfl⟩, _, W4, ⟨-, rfl⟩, b, W5, ⟨rfl, rfl⟩, h⟩ := h
    rcases h with ⟨-, -, rfl⟩ | ⟨-, h⟩
    · exact f2
    · obtain ⟨log, rfl⟩ := propagateVariables_log h
      exact f2.of (f2.ti.other rfl rfl rfl) rfl (fun _ _ _ h _ => h)

theorem FP.dropFact {f x : Int} {var : Nat} {u : Unit} {gs' : List (Int × Nat × Int × Int)} (hf : FP gs M W) (hd : ∀ q ∈ gs, q ∈ gs' ∨ (q.2.1 = var ∧ q.2.2.1 = x))
    (h : Clingcon.dropFact f var x W = .ok (u, W')) : FP gs' M W' := by
  obtain ⟨-, e, ho⟩ := dropFact_ord hf.ti h
  refine ⟨(ti_prim.drFact f var x).kw _ _ _ h hf.ti, e.trans hf.fm, fun v k l hl h1 => ?_⟩
  obtain ⟨hq, hn⟩ := ho v k l hl
  obtain ⟨p, hp⟩ := hf.inn v k l hq h1
  rcases hd _ hp with hd | hd
  · exact ⟨p, hd⟩
  · exact absurd hd hn

/-- After all recorded facts have been integrated, there are none left. -/
theorem FP.propagateFacts {lvl : Nat} : ∀ {fs gs : List (Int × Nat × Int × Int)} {W W' : World} {r : Bool}, FP gs M W → (∀ q ∈ gs, q ∈ fs) →
    Clingcon.propagateFacts cc lvl fs W = .ok (r, W') → FP (if r = true then [] else gs) M W'
  | [], gs, W, W', r, hf, hs, h => by
    obtain ⟨rfl, rfl⟩ := pure_iff.mp h
    rw [if_pos rfl]
    exact ⟨hf.ti, hf.fm, fun v k l hl h1 => by obtain ⟨p, hp⟩ := hf.inn v k l hl h1; exact absurd (hs _ hp) (by simp)⟩
  | (f, var, x, p) :: fs, gs, W, W', r, hf, hs, h => by
    unfold Clingcon.propagateFacts at h
    rw [bind_iff] at h
    obtain ⟨ok, W1, h1, h⟩ := h
    have f1 : FP gs M W1 := by
      split_ifs at h1
      · exact hf.updateUpperLit h1
      · exact hf.updateLowerLit h1
    cases ok with
    | false =>
      obtain ⟨rfl, rfl⟩ := pure_iff.mp h
      exact f1
    | true =>
      simp only [Bool.not_true, Bool.false_eq_true, if_false] at h
      rw [bind_iff] at h
      obtain ⟨_, W2, h2, h⟩ := h
      have f2 : FP (gs.filter (fun q => !(q.2.1 == var && q.2.2.1 == x))) M W2 := by
        refine f1.dropFact (fun q hq => ?_) h2
        by_cases hc : q.2.1 = var ∧ q.2.2.1 = x
        · exact Or.inr hc
        · left
          rw [List.mem_filter]
          refine ⟨hq, ?_⟩
          by_cases h1 : q.2.1 = var
          · have : q.2.2.1 ≠ x := fun e => hc ⟨h1, e⟩
            simp [this]
          · simp [h1]
      have := FP.propagateFacts f2 (fun q hq => by
        rw [List.mem_filter] at hq
        rcases List.mem_cons.mp (hs q hq.1) with rfl | hm
        · simp at hq
        · exact hm) h
      cases r with
      | true => exact this
      | false =>
        have : FP (gs.filter (fun q => !(q.2.1 == var && q.2.2.1 == x))) M W' := this
        exact ⟨this.ti, this.fm, fun v k l hl h1 => (this.inn v k l hl h1).imp fun p hp => (List.mem_filter.mp hp).1⟩

theorem FI.of (h : FI W) (ti : TI W') (ho : ∀ v k l, OrdLit W' v k l → l.natAbs = 1 → OrdLit W v k l ∨ ∃ p, (l, v, k, p) ∈ W'.factmap)
    (hm : ∀ q ∈ W.factmap, q ∈ W'.factmap) : FI W' := by
  refine ⟨ti, rfl, fun v k l hl h1 => ?_⟩
  rcases ho v k l hl h1 with hq | hq
  · exact (h.inn v k l hq h1).imp fun p hp => hm _ hp
  · exact hq

theorem FI.upd {var : Nat} {x l : Int} {t : Bool} (h : FI W) (ti : TI W') (g : UpdLit W var x t l W') : FI W' := by
  cases g with
  | got _ _ g =>
    have := FP.got h g
    rw [← g.factmap] at this
    exact this
  | fact vs vs' hv h1 h2 h3 hs =>
    refine h.of ti (fun v k m hm e => ?_) (fun q hq => List.mem_append_left _ hq)
    rcases ord_set (W := W) (v := var) (vs' := vs') rfl hm with ⟨rfl, hq⟩ | ⟨-, hq⟩
    · have := (hs.mem _ _).mp hq
      by_cases hk : k = x
      · rw [if_pos hk] at this
        subst this hk
        exact Or.inr ⟨_, List.mem_append_right _ (List.mem_singleton.mpr rfl)⟩
      · rw [if_neg hk] at this
        exact Or.inl ⟨vs, hv, this⟩
    · exact Or.inl hq

theorem FI.makeFact {olit fact : Int} {u : Unit} (hi : FI W) (hf : fact.natAbs = 1) (h : Clingcon.makeFact olit fact W = .ok (u, W')) : FI W' := by
  have t := hi.ti.ti_makeFact hf h
  unfold Clingcon.makeFact at h
  simp only [smok] at h
  obtain ⟨e, W1, ⟨rfl, rfl⟩, h⟩ := h
  rcases h with ⟨hv, h⟩ | ⟨hv, rfl⟩
  · obtain ⟨vs, W2, ⟨g1, rfl⟩, old, W3, ⟨g2, rfl⟩, _, W4, ⟨g3, rfl⟩, vs', W5, ⟨g4, rfl⟩, _, W6, rfl, _, W7,
      ⟨ps, vs2, g5, rfl, rfl⟩, e2, W8, ⟨rfl, rfl⟩, _, W9, rfl, rfl⟩ := h
    obtain ⟨v0, v1, v2, v3⟩ := entry_valid hv
    have hs := setLiteral_eff (hi.ti.wf _ _ g1) (by rintro rfl; cases hf) g4
    refine hi.of t (fun v k m hm e => ?_) (fun q hq => List.mem_append_left _ hq)
    rcases ord_set (vs' := vs') (W := W5) rfl hm with ⟨rfl, hq⟩ | ⟨-, hq⟩
    · have := (hs.mem _ _).mp hq
      by_cases hk : k = (entryAt W5.litmap olit).value
      · rw [if_pos hk] at this
        subst this hk
        right
        obtain ⟨e', a1, a2, a3, a4, a5⟩ := linkP_some (vs := vs2) (lit := m) (k := (entryAt W5.litmap olit).value) v1
        have : entryAt (linkP vs2 m (entryAt W5.litmap olit).value W5.litmap) olit = e' := by
          rw [entryAt, if_neg v0, List.getD_eq_getElem?_getD, a1]; rfl
        refine ⟨if m = TRUE_LIT then e'.succ else e'.prev, List.mem_append_right _ ?_⟩
        dsimp only
        rw [this, a2, a4]
        exact List.mem_singleton.mpr rfl
      · rw [if_neg hk] at this
        exact Or.inl ⟨vs, g1, this⟩
    · exact Or.inl hq
  · exact hi

theorem FI.updateDomain {l : Int} (hi : FI W) (h : Clingcon.updateDomain cc l W = .ok (r, W')) : FI W' := by
  unfold Clingcon.updateDomain at h
  rw [bind_iff] at h
  obtain ⟨lvl, W1, h1, h⟩ := h
  obtain ⟨-, rfl⟩ := curLevel_level h1
  rw [bind_iff] at h
  obtain ⟨t, W2, h2, h⟩ := h
  obtain ⟨rfl, rfl⟩ := qTrue_iff.mp h2
  rw [bind_iff] at h
  obtain ⟨_, W3, h3, h⟩ := h
  obtain ⟨-, rfl⟩ := assertS_iff.mp h3
  rw [bind_iff] at h
  obtain ⟨l', W4, h4, h⟩ := h
  have f4 : FI W4 := by
    unfold simplifyLit at h4
    rw [bind_iff] at h4
    obtain ⟨f, W5, h5, h4⟩ := h4
    obtain ⟨rfl, rfl⟩ := qFixed_iff.mp h5
    split_ifs at h4 with hc
    · simp only [smok] at h4
      obtain ⟨_, W6, g1, _, W7, g2, rfl, rfl⟩ := h4
      exact (hi.makeFact rfl g1).makeFact rfl g2
    · obtain ⟨rfl, rfl⟩ := pure_iff.mp h4
      exact hi
  split_ifs at h with hl
  · rw [bind_iff] at h
    obtain ⟨n, W5, h5, h⟩ := h
    obtain ⟨rfl, rfl⟩ := qLevel_iff.mp h5
    rw [bind_iff] at h
    obtain ⟨_, W6, h6, h⟩ := h
    obtain ⟨-, rfl⟩ := assertS_iff.mp h6
    rw [bind_iff] at h
    obtain ⟨X, W7, h7, h⟩ := h
    obtain ⟨rfl, rfl⟩ := get_iff.mp h7
    rw [bind_iff] at h
    obtain ⟨ok, W8, h8, h⟩ := h
    have f8 := FP.propagateFacts f4 (fun q hq => hq) h8
    cases ok with
    | false =>
      obtain ⟨rfl, rfl⟩ := pure_iff.mp h
      rw [if_neg (by decide), ← f8.fm] at f8
      exact f8
    | true =>
      simp only [Bool.not_true, Bool.false_eq_true, if_false] at h
      rw [bind_iff] at h
      obtain ⟨_, W9, h9, h⟩ := h
      obtain ⟨rfl, rfl⟩ := pure_iff.mp h
      obtain rfl := modify_iff.mp h9
      exact ⟨f8.ti.other rfl rfl rfl, rfl, f8.inn⟩
  · rw [bind_iff] at h
    obtain ⟨e, W5, h5, h⟩ := h
    obtain ⟨rfl, rfl⟩ := litmapAt_iff.mp h5
    rw [bind_iff] at h
    obtain ⟨b, W6, h6, h⟩ := h
    have f6 : FI W6 := by
      split_ifs at h6 with hv
      · have := FP.updateUpperLit f4 h6
        rw [← this.fm] at this
        exact this
      · obtain ⟨rfl, rfl⟩ := pure_iff.mp h6
        exact f4
    cases b with
    | false =>
      obtain ⟨rfl, rfl⟩ := pure_iff.mp h
      exact f6
    | true =>
      simp only [Bool.not_true, Bool.false_eq_true, if_false] at h
      rw [bind_iff] at h
      obtain ⟨e, W7, h7, h⟩ := h
      obtain ⟨rfl, rfl⟩ := litmapAt_iff.mp h7
      split_ifs at h with hv
      · have := FP.updateLowerLit f6 h
        rw [← this.fm] at this
        exact this
      · obtain ⟨rfl, rfl⟩ := pure_iff.mp h
        exact f6

theorem fi_prim : PrimU FI where
  book W _ _ h := FP.of (M := W.factmap) h (h.ti.other rfl rfl rfl) rfl (fun _ _ _ h _ => h)
  event W _ _ h := FP.of (M := W.factmap) h (h.ti.other rfl rfl rfl) rfl (fun _ _ _ h _ => h)
  levels W _ h := FP.of (M := W.factmap) h (h.ti.other rfl rfl rfl) rfl (fun _ _ _ h _ => h)
  literal cc v x := ⟨fun W a W' hx h => by
    have g := getLiteral_eff h.ti.wf (by have := h.ti.pos; omega) hx
    have := FP.got h g
    rw [← g.factmap] at this
    exact this⟩
  updLiteral cc v x t := ⟨fun W a W' hx h => by
    have ti := (ti_prim.updLiteral cc v x t).kw _ _ _ hx h.ti
    rcases updateLiteral_eff h.ti.wf (by have := h.ti.pos; omega) hx with ⟨-, t, -, g⟩ | g
    · exact h.upd ti g
    · have := FP.got h g
      rw [← g.factmap] at this
      exact this⟩
  domain cc l := ⟨fun W a W' hx h => FI.updateDomain h hx⟩
  step m n o := ⟨fun W a W' hx h => by
    obtain ⟨-, e, k⟩ := updateStep_ord h.ti hx
    refine FI.of h ((ti_prim.step m n o).kw _ _ _ hx h.ti) (fun v k' l hl _ => Or.inl (k v k' l hl)) (fun q hq => by rw [e]; exact hq)⟩
  popLower v := ⟨fun W a W' hx h => by
    obtain ⟨-, e, k⟩ := undoLowerVar_ord hx
    refine FI.of h ((ti_prim.popLower v).kw _ _ _ hx h.ti) (fun v k' l hl _ => Or.inl ((k v k' l).mp hl)) (fun q hq => by rw [e]; exact hq)⟩
  popUpper v := ⟨fun W a W' hx h => by
    obtain ⟨-, e, k⟩ := undoUpperVar_ord hx
    refine FI.of h ((ti_prim.popUpper v).kw _ _ _ hx h.ti) (fun v k' l hl _ => Or.inl ((k v k' l).mp hl)) (fun q hq => by rw [e]; exact hq)⟩

theorem FI.exec {op : Op} (hi : FI W) (hp : op.pre W) (h : op.exec W = .ok (r, W')) : FI W' := by
  have hP := fi_prim
  have ti := hi.ti.exec hp h
  cases op with
  | addVar lo up =>
    obtain ⟨_, W1, g1, g2⟩ := SM.bind_ok h
    obtain ⟨-, rfl⟩ := pure_iff.mp g2
    obtain ⟨v, g3⟩ := discard_iff.mp g1
    unfold addVar at g3
    injection g3 with g3
    obtain ⟨rfl, rfl⟩ := Prod.mk.inj g3
    refine hi.of ti (fun v k l hh _ => ?_) (fun q hq => hq)
    obtain ⟨vs, a, b⟩ := hh
    rw [List.getElem?_append] at a
    split_ifs at a with hlt
    · exact Or.inl ⟨vs, a, b⟩
    · rw [List.getElem?_singleton] at a
      split_ifs at a
      injection a with a
      subst a
      cases b
  | simple cc l co v r s =>
    replace h : addSimple cc l co v r s W = .ok (_, W') := h
    unfold addSimple at h
    rw [bind_iff] at h
    obtain ⟨f, W0, h0', h⟩ := h
    obtain ⟨rfl, rfl⟩ := qFalse_iff.mp h0'
    split at h
    · obtain ⟨-, rfl⟩ := pure_iff.mp h; exact hi
    rw [bind_iff] at h
    obtain ⟨truth, W1, h1, h⟩ := h
    obtain ⟨ht1, rfl⟩ := qValue_iff.mp h1
    generalize (if co > 0 then floordiv r co else -floordiv r (-co) - 1) = x at h
    rw [bind_iff] at h
    obtain ⟨direct, W2, h2, h⟩ := h
    cases direct with
    | true =>
      obtain ⟨rfl, vs, hv, hno⟩ := canReuse_none hi.ti.wf h2
      rw [if_pos rfl] at h
      cases truth with
      | some t =>
        dsimp only at h
        unfold useFact at h
        simp only [smok] at h
        obtain ⟨ps, W3, ⟨vs1, g1, rfl, rfl⟩, _, W4, rfl, vs2, W5, ⟨g2, rfl⟩, vs', W6, ⟨g3, rfl⟩, _, W7, rfl, -, rfl⟩ := h
        have h1 : (if t then TRUE_LIT else -TRUE_LIT : Int).natAbs = 1 := by cases t <;> rfl
        have hs := setLiteral_eff (hi.ti.wf _ _ g2) (by intro h0; rw [h0] at h1; cases h1) g3
        refine hi.of ti (fun u k m hh _ => ?_) (fun q hq => List.mem_append_left _ hq)
        rcases ord_set (W := W2) (vs' := vs') rfl hh with ⟨e, hq⟩ | ⟨-, hq⟩
        · have hm := (hs.mem _ _).mp hq
          split at hm
          · rename_i hk
            right
            rw [hm, hk, e]
            exact ⟨_, List.mem_append_right _ (List.mem_singleton.mpr rfl)⟩
          · left
            rw [e]
            exact ⟨vs2, g2, hm⟩
        · exact Or.inl hq
      | none =>
        dsimp only at h
        have hne : l.natAbs ≠ 1 := by
          intro hn
          have ht := hp.2.2
          have ha : cc.atom W2.log 1 = some true := by
            unfold CC.value at ht
            rw [if_pos (by decide)] at ht
            exact ht
          unfold CC.value at ht1
          have e : (if co > 0 then l else -l).natAbs = 1 := by split_ifs <;> omega
          rw [e, ha] at ht1
          split_ifs at ht1 <;> cases ht1
        have hz := hp.1
        obtain ⟨-, k⟩ := useLit_ord (lit := if co < 0 then -l else l) hi.ti (by split_ifs <;> omega) h
        refine hi.of ti (fun v n m hm h1 => Or.inl ?_) ?_
        · rcases k v n m hm with hq | rfl | hq
          · exact hq
          · split_ifs at h1 <;> omega
          · have := hi.ti.pos
            omega
        · have : W'.factmap = W2.factmap := by
            unfold useLit at h
            rw [bind_iff] at h
            obtain ⟨o, W3, h3, h⟩ := h
            have e3 : W3.factmap = W2.factmap := by
              unfold freeLit at h3
              simp only [smok] at h3
              obtain ⟨e, W4, ⟨rfl, rfl⟩, h3⟩ := h3
              rcases h3 with ⟨hinv, rfl, rfl⟩ | ⟨-, l, W3, ⟨rfl, rfl⟩, _, W4, rfl, h3⟩
              · rfl
              obtain ⟨b, W4, ⟨rfl, rfl⟩, h3⟩ := h3
              rcases h3 with ⟨-, rfl, rfl⟩ | ⟨-, b, W5, ⟨rfl, rfl⟩, h3⟩
              · rfl
              rcases h3 with ⟨-, rfl, rfl⟩ | ⟨-, rfl, rfl⟩ <;> rfl
            cases o with
            | none => obtain ⟨-, rfl⟩ := pure_iff.mp h; exact e3
            | some m =>
              simp only [smok] at h
              obtain ⟨_, W2, rfl, _, W3, rfl, _, W4, ⟨-, vs1, g1, -, rfl⟩, vs2, W5, ⟨g2, rfl⟩, vs', W6, ⟨g3, rfl⟩, _, W7, rfl, -, rfl⟩ := h
              exact e3
          intro q hq
          rw [this]; exact hq
    | false =>
      have hi2 := (kw_canReuse hP.toPrim0).kw _ _ _ h2 hi
      rw [if_neg (by decide)] at h
      refine Kw.kw (P := FI) ?_ _ _ _ h hi2
      kw_auto
  | fresh => rw [(fresh_iff.mp h).2] at ti ⊢; exact ⟨ti, rfl, fun v k l hl h1 => hi.inn v k l hl h1⟩
  | post e => rw [(post_iff.mp h).2] at ti ⊢; exact ⟨ti, rfl, fun v k l hl h1 => hi.inn v k l hl h1⟩
  | _ => refine (kw_exec hP (fun W n h => FP.of (M := W.factmap) h (h.ti.other rfl rfl rfl) rfl (fun _ _ _ h _ => h)) ?_ ?_ ?_ ?_).kw _ _ _ h hi <;> intros <;> first | contradiction | (intro e; cases e)

theorem FI.init {n : Int} (h : 1 < n) : FI (World.init n) := by
  refine ⟨TI.init h, rfl, fun v k l hh => ?_⟩
  obtain ⟨vs, hv, -⟩ := hh
  cases hv

theorem FI.run {ops : List Op} (h : Run ops W W') : FI W → FI W' := by
  induction h with
  | nil => exact id
  | cons hp hx _ ih => exact fun hi => ih (hi.exec hp hx)

end Clingcon
