import Verif.Proof.GivenFacts

/-! Going back in time: an assignment that agrees with the tables and bounds of a later state agrees with the ones of earlier
states. -/
set_option linter.unusedSimpArgs false
set_option linter.unusedVariables false
set_option linter.unnecessarySeqFocus false
namespace Clingcon
open Spec VarState

variable {α γ : Type} {W W0 W1 W' : World} {cc : CC} {r : Bool} {β : Nat → Bool} {σ : Nat → Int} {z : Prop}

/-- The assignment agrees with order literals, bounds on the top level, and recorded facts. -/
structure Meets (β : Nat → Bool) (σ : Nat → Int) (W : World) : Prop where
  table : ∀ v k l, OrdLit W v k l → (litTrue β l ↔ σ v ≤ k)
  bound : ∀ v, v < W.vars.length → mnF (frame W) v ≤ σ v ∧ σ v ≤ mxF (frame W) v
  facts : ∀ f v k p, (f, v, k, p) ∈ W.factmap → (if f = TRUE_LIT then σ v ≤ k else k < σ v)

/-- If the assignment agrees with `W`, then it agrees with the earlier state `W0`, and literals that have become order literals since then have their meaning. -/
structure Mean (β : Nat → Bool) (σ : Nat → Int) (W0 W : World) : Prop where
  ti : TI W
  log : ∃ new, W.log = new ++ W0.log
  len : W0.vars.length ≤ W.vars.length
  back : AllHold β W.log → Meets β σ W → Meets β σ W0 ∧ ∀ l v k, SEv.order l v k ∈ W.log → SEv.order l v k ∈ W0.log ∨ (litTrue β l ↔ σ v ≤ k)

theorem AllHold.suffix {new log : List SEv} (h : AllHold β (new ++ log)) : AllHold β log := fun e he => h e (List.mem_append_right _ he)

theorem Mean.refl (h : TI W) : Mean β σ W W := ⟨h, ⟨[], rfl⟩, le_refl _, fun _ hm => ⟨hm, fun _ _ _ h => Or.inl h⟩⟩

theorem Mean.trans (h : Mean β σ W0 W1) (h' : Mean β σ W1 W) : Mean β σ W0 W := by
  obtain ⟨n1, e1⟩ := h.log
  obtain ⟨n2, e2⟩ := h'.log
  refine ⟨h'.ti, ⟨n2 ++ n1, by rw [e2, e1, List.append_assoc]⟩, le_trans h.len h'.len, fun ha hm => ?_⟩
  obtain ⟨m1, o1⟩ := h'.back ha hm
  rw [e2] at ha
  obtain ⟨m0, o0⟩ := h.back (AllHold.suffix ha) m1
  refine ⟨m0, fun l v k hl => ?_⟩
  rcases o1 l v k hl with hq | hq
  · exact o0 l v k hq
  · exact Or.inr hq

/-- Nothing but logs and bookkeeping changes. -/
theorem Mean.same (h : Mean β σ W0 W) (h1 : W'.vars = W.vars) (h2 : W'.litmap = W.litmap) (h3 : W'.nextLit = W.nextLit) (h4 : W'.factmap = W.factmap)
    {new : List SEv} (hl : W'.log = new ++ W.log) (hn : ∀ l v k, SEv.order l v k ∉ new) : Mean β σ W0 W' := by
  refine h.trans ⟨h.ti.other h1 h2 h3, ⟨new, hl⟩, by rw [h1], fun ha hm => ⟨⟨fun v k l ho => hm.table v k l ((ord_vars h1).mpr ho), fun v hv => ?_, fun f v k p hp => hm.facts f v k p (by rw [h4]; exact hp)⟩,
    fun l v k hh => ?_⟩⟩
  · have := hm.bound v (by rw [h1]; exact hv)
    unfold mnF mxF frame at this ⊢
    rw [h1] at this
    exact this
  · rw [hl] at hh
    rcases List.mem_append.mp hh with hh | hh
    · exact absurd hh (hn l v k)
    · exact Or.inl hh

/-- Bounds in frames. -/
theorem meets_frame (hf : frame W' = frame W) (hb : ∀ v, v < W'.vars.length → mnF (frame W') v ≤ σ v ∧ σ v ≤ mxF (frame W') v) :
    ∀ v, v < W.vars.length → mnF (frame W) v ≤ σ v ∧ σ v ≤ mxF (frame W) v := by
  intro v hv
  have := congrArg (fun F => F.1.length) hf
  simp only [frame, List.length_map] at this
  rw [← hf]
  exact hb v (by omega)

theorem frame_len (hf : frame W' = frame W) : W'.vars.length = W.vars.length := by
  have := congrArg (fun F => F.1.length) hf
  simpa only [frame, List.length_map] using this

theorem mean_got {v : Nat} {x l : Int} (hi : TI W) (hf : frame W' = frame W) (g : GotLit W v x l W') : Mean β σ W W' := by
  have t := g.ti hi
  obtain ⟨o1, -, -⟩ := g.ord
  have fm := g.factmap
  refine ⟨t, ?_, by rw [frame_len hf], fun ha hm => ⟨⟨fun v k l ho => hm.table v k l (o1 v k l ho), meets_frame hf hm.bound, fun f v k p hp => hm.facts f v k p (by rw [fm]; exact hp)⟩, ?_⟩⟩
  · cases g with
    | low => exact ⟨[], rfl⟩
    | high => exact ⟨[], rfl⟩
    | old => exact ⟨[], rfl⟩
    | new => exact ⟨[_, _, _, _], rfl⟩
  · intro m w k hh
    cases g with
    | low => exact Or.inl hh
    | high => exact Or.inl hh
    | old => exact Or.inl hh
    | new vs vs' l hv h1 h2 hn hs hl =>
      simp only [List.mem_cons, reduceCtorEq, false_or, SEv.order.injEq] at hh
      rcases hh with ⟨rfl, rfl, rfl⟩ | hh
      · exact Or.inr (hm.table w k m (ord_at rfl hv ((hs.mem _ _).mpr (by rw [if_pos rfl]))))
      · exact Or.inl hh

theorem mean_upd {v : Nat} {x l : Int} {t : Bool} (hi : TI W) (hf : frame W' = frame W) (g : UpdLit W v x t l W') (ti : TI W') (ho : ∀ v k m, OrdLit W v k m → OrdLit W' v k m) : Mean β σ W W' := by
  cases g with
  | got _ _ g => exact mean_got hi hf g
  | fact vs vs' hv h1 h2 h3 hs =>
    exact ⟨ti, ⟨[], rfl⟩, by rw [frame_len hf], fun ha hm => ⟨⟨fun v k l hl => hm.table v k l (ho v k l hl), meets_frame hf hm.bound,
      fun f v k p hp => hm.facts f v k p (List.mem_append_left _ hp)⟩, fun _ _ _ h => Or.inl h⟩⟩

theorem mean_prim0 : Prim0 (Mean β σ W0) where
  book W b hb h := h.same (new := []) rfl rfl rfl rfl rfl (by simp)
  event W e he h := h.same (new := [e]) rfl rfl rfl rfl rfl (by
    intro l v k hm
    rw [List.mem_singleton] at hm
    exact he.1 l v k hm.symm)
  literal cc v x := ⟨fun W a W' hx h => h.trans (mean_got h.ti (fr_getLiteral.fr _ _ _ hx) (getLiteral_eff h.ti.wf (by have := h.ti.pos; omega) hx))⟩
  updLiteral cc v x t := ⟨fun W a W' hx h => by
    have f := fr_updateLiteral.fr _ _ _ hx
    have ti := (ti_prim.updLiteral cc v x t).kw _ _ _ hx h.ti
    obtain ⟨o, -, -⟩ := updateLiteral_ord h.ti hx
    rcases updateLiteral_eff h.ti.wf (by have := h.ti.pos; omega) hx with ⟨-, t, -, g⟩ | g
    · exact h.trans (mean_upd h.ti f g ti o)
    · exact h.trans (mean_got h.ti f g)⟩

/-- A variable state is replaced by one with the same table and tighter bounds. -/
theorem Mean.set {v : Nat} {vs vs' : VarState} (h : Mean β σ W0 W) (hv : W.vars[v]? = some vs) (he : W'.vars = W.vars.set v vs') (ti : TI W')
    (hl : W'.log = W.log) (hm : W'.factmap = W.factmap)
    (ht : vs'.table = vs.table) (h1 : vs.minBound ≤ vs'.minBound) (h2 : vs'.maxBound ≤ vs.maxBound) : Mean β σ W0 W' := by
  have len : W'.vars.length = W.vars.length := by rw [he, List.length_set]
  refine h.trans ⟨ti, ⟨[], by rw [hl]; rfl⟩, by rw [len], fun ha mm => ⟨⟨fun w k l ho => mm.table w k l ((ord_bounds hv ht he).mpr ho), fun w hw => ?_,
    fun f w k p hp => mm.facts f w k p (by rw [hm]; exact hp)⟩, fun _ _ _ hh => Or.inl (by rw [← hl]; exact hh)⟩⟩
  obtain ⟨b1, b2⟩ := mm.bound w (by omega)
  by_cases hq : w = v
  · subst hq
    have g : W'.vars[w]? = some vs' := by rw [he, List.getElem?_set_self (List.getElem?_eq_some_iff.mp hv).1]
    rw [(mn_get g).1] at b1
    rw [(mn_get g).2] at b2
    rw [(mn_get hv).1, (mn_get hv).2]
    omega
  · have e : mnF (frame W') w = mnF (frame W) w ∧ mxF (frame W') w = mxF (frame W) w := by
      unfold mnF mxF frame
      dsimp only
      rw [List.getElem?_map, List.getElem?_map, he, List.getElem?_set_ne (fun e => hq e.symm)]
      exact ⟨rfl, rfl⟩
    rw [e.1] at b1
    rw [e.2] at b2
    exact ⟨b1, b2⟩

theorem mean_updateUpper {lvl v : Nat} {x : Int} {u : Unit} (hx : updateUpper lvl v x W = .ok (u, W')) (h : Mean β σ W0 W) : Mean β σ W0 W' := by
  have t := h.ti.ti_updateUpper hx
  unfold updateUpper at hx
  simp only [smok] at hx
  obtain ⟨vs, W1, ⟨hv, rfl⟩, _, W2, h2, _, W3, ⟨ha, rfl⟩, _, W4, rfl, rfl⟩ := hx
  have e1 : W3.vars = W1.vars ∧ W3.log = W1.log ∧ W3.factmap = W1.factmap := by rcases h2 with ⟨-, rfl⟩ | ⟨-, rfl⟩ <;> exact ⟨rfl, rfl, rfl⟩
  refine h.set (vs' := { (if (decide (lvl > 0) && !vs.pushedUpper lvl) = true then vs.pushUpper lvl else vs) with upper := x }) hv ?_ t e1.2.1 e1.2.2 ?_ ?_ ?_
  · show W3.vars.set v _ = _
    rw [e1.1]
  · split_ifs <;> rfl
  · split_ifs <;> exact le_refl _
  · split_ifs at ha ⊢ with hc
    · rw [max_of_stack (by simp [VarState.pushUpper]), VarState.pushUpper_max]
    · simp only [ge_iff_le, decide_eq_true_eq] at ha
      by_cases hne : vs.upperStack = []
      · unfold VarState.maxBound
        simp only [hne, List.getLast?_nil]
        exact ha
      · rw [max_of_stack hne]

theorem mean_updateLower {lvl v : Nat} {x : Int} {u : Unit} (hx : updateLower lvl v x W = .ok (u, W')) (h : Mean β σ W0 W) : Mean β σ W0 W' := by
  have t := h.ti.ti_updateLower hx
  unfold updateLower at hx
  simp only [smok] at hx
  obtain ⟨vs, W1, ⟨hv, rfl⟩, _, W2, h2, _, W3, ⟨ha, rfl⟩, _, W4, rfl, rfl⟩ := hx
  have e1 : W3.vars = W1.vars ∧ W3.log = W1.log ∧ W3.factmap = W1.factmap := by rcases h2 with ⟨-, rfl⟩ | ⟨-, rfl⟩ <;> exact ⟨rfl, rfl, rfl⟩
  refine h.set (vs' := { (if (decide (lvl > 0) && !vs.pushedLower lvl) = true then vs.pushLower lvl else vs) with lower := x + 1 }) hv ?_ t e1.2.1 e1.2.2 ?_ ?_ ?_
  · show W3.vars.set v _ = _
    rw [e1.1]
  · split_ifs <;> rfl
  · split_ifs at ha ⊢ with hc
    · refine le_of_eq (Eq.symm ?_)
      rw [min_of_stack (by simp [VarState.pushLower]), VarState.pushLower_min]
    · simp only [ge_iff_le, decide_eq_true_eq] at ha
      by_cases hne : vs.lowerStack = []
      · unfold VarState.minBound
        simp only [hne, List.getLast?_nil]
        exact ha
      · refine le_of_eq (Eq.symm ?_)
        rw [min_of_stack hne]
  · split_ifs <;> exact le_refl _

theorem mean_prim : PrimP (Mean β σ W0) where
  toPrim0 := mean_prim0
  levels W ls h := h.same (new := []) rfl rfl rfl rfl rfl (by simp)
  popLower v := ⟨fun W a W' hx h => by
    have t := h.ti.ti_undoLowerVar hx
    unfold undoLowerVar at hx
    simp only [smok] at hx
    obtain ⟨vs, W1, ⟨hv, rfl⟩, vs', W2, ⟨hp, rfl⟩, _, W3, rfl, rfl⟩ := hx
    have hne : vs.lowerStack ≠ [] := by intro e; unfold VarState.popLower at hp; rw [e] at hp; cases hp
    obtain ⟨x, e, h1, h2, h3⟩ := popLower_ok hne
    rw [e] at hp
    injection hp with hp
    subst hp
    exact h.set hv rfl t rfl rfl h3 (by omega) (by omega)⟩
  popUpper v := ⟨fun W a W' hx h => by
    have t := h.ti.ti_undoUpperVar hx
    unfold undoUpperVar at hx
    simp only [smok] at hx
    obtain ⟨vs, W1, ⟨hv, rfl⟩, vs', W2, ⟨hp, rfl⟩, _, W3, rfl, rfl⟩ := hx
    have hne : vs.upperStack ≠ [] := by intro e; unfold VarState.popUpper at hp; rw [e] at hp; cases hp
    obtain ⟨x, e, h1, h2, h3⟩ := popUpper_ok hne
    rw [e] at hp
    injection hp with hp
    subst hp
    exact h.set hv rfl t rfl rfl h3 (by omega) (by omega)⟩

/-! ### The top level -/

/-- The solver is on the top level. -/
structure Flat (W : World) : Prop where
  lev : W.book.levels = [baseLvl]
  stack : ∀ v, lstF (frame W) v = [] ∧ ustF (frame W) v = []

theorem Flat.of (h : Flat W) (hf : frame W' = frame W) : Flat W' := by
  refine ⟨?_, by rw [hf]; exact h.stack⟩
  have : W'.book = W.book := congrArg Prod.snd hf
  rw [this]; exact h.lev

theorem Flat.vars (h : Flat W) (h1 : W'.vars = W.vars) (h2 : W'.book.levels = W.book.levels) : Flat W' := by
  refine ⟨h2.trans h.lev, ?_⟩
  have := h.stack
  unfold lstF ustF frame at this ⊢
  rw [h1]
  exact this

theorem Flat.bounds (h : Flat W) : mnF (frame W) = loF (frame W) ∧ mxF (frame W) = upF (frame W) := by
  constructor <;> funext v
  · have := (h.stack v).1
    unfold lstF at this
    unfold mnF loF
    cases hv : (frame W).1[v]? with
    | none => rfl
    | some vs =>
      rw [hv] at this
      dsimp only at this ⊢
      unfold VarState.minBound
      rw [this]
      rfl
  · have := (h.stack v).2
    unfold ustF at this
    unfold mxF upF
    cases hv : (frame W).1[v]? with
    | none => rfl
    | some vs =>
      rw [hv] at this
      dsimp only at this ⊢
      have : vs.upperStack = [] := by
        cases hs : vs.upperStack with
        | nil => rfl
        | cons a b => rw [hs] at this; cases this
      unfold VarState.maxBound
      rw [this]
      rfl

theorem WI.flat (h : WI W) (hl : W.book.levels.length = 1) : Flat W :=
  ⟨h.levels hl, fun v => ⟨(h.b0 hl).stL v, (h.b0 hl).stU v⟩⟩

/-- Setting a variable state without stacks. -/
theorem Flat.set {v : Nat} {vs' : VarState} (h : Flat W) (he : W'.vars = W.vars.set v vs') (hb : W'.book.levels = W.book.levels) (h1 : vs'.lowerStack = []) (h2 : vs'.upperStack = []) : Flat W' := by
  refine ⟨hb.trans h.lev, fun w => ?_⟩
  have := h.stack w
  unfold lstF ustF frame at this ⊢
  dsimp only at this ⊢
  rw [List.getElem?_map] at this ⊢
  rw [he, List.getElem?_set]
  split_ifs with h3 h4
  · dsimp only [Option.map]
    exact ⟨h1, by show negStk vs'.upperStack = []; rw [h2]; rfl⟩
  · exact ⟨rfl, rfl⟩
  · exact this

theorem Flat.get {v : Nat} {vs : VarState} (h : Flat W) (hv : W.vars[v]? = some vs) : vs.lowerStack = [] ∧ vs.upperStack = [] := by
  have := h.stack v
  unfold lstF ustF frame at this
  dsimp only at this
  rw [List.getElem?_map, hv] at this
  refine ⟨this.1, ?_⟩
  have h2 : negStk vs.upperStack = [] := this.2
  cases hs : vs.upperStack with
  | nil => rfl
  | cons a b => rw [hs] at h2; cases h2

theorem Flat.updateUpper {v : Nat} {x : Int} {u : Unit} (h : Flat W) (hx : Clingcon.updateUpper 0 v x W = .ok (u, W')) : Flat W' := by
  unfold Clingcon.updateUpper at hx
  simp only [smok] at hx
  obtain ⟨vs, W1, ⟨hv, rfl⟩, _, W2, h2, _, W3, ⟨ha, rfl⟩, _, W4, rfl, rfl⟩ := hx
  have e1 : W3 = W1 := by
    rcases h2 with ⟨hc, -⟩ | ⟨-, rfl⟩
    · simp at hc
    · rfl
  subst e1
  obtain ⟨s1, s2⟩ := h.get hv
  exact h.set rfl rfl (by simp [s1]) (by simp [s2])

theorem Flat.updateLower {v : Nat} {x : Int} {u : Unit} (h : Flat W) (hx : Clingcon.updateLower 0 v x W = .ok (u, W')) : Flat W' := by
  unfold Clingcon.updateLower at hx
  simp only [smok] at hx
  obtain ⟨vs, W1, ⟨hv, rfl⟩, _, W2, h2, _, W3, ⟨ha, rfl⟩, _, W4, rfl, rfl⟩ := hx
  have e1 : W3 = W1 := by
    rcases h2 with ⟨hc, -⟩ | ⟨-, rfl⟩
    · simp at hc
    · rfl
  subst e1
  obtain ⟨s1, s2⟩ := h.get hv
  exact h.set rfl rfl (by simp [s1]) (by simp [s2])

/-- Both properties; the second one only while the Boolean solver is on the top level. -/
def MF (β : Nat → Bool) (σ : Nat → Int) (z : Prop) (W0 W : World) : Prop := Mean β σ W0 W ∧ (z → Flat W)

theorem mf_prim0 : Prim0 (MF β σ z W0) where
  book W b hb h := ⟨mean_prim0.book W b hb h.1, fun hz => (h.2 hz).vars rfl (congrArg (·.1) hb)⟩
  event W e he h := ⟨mean_prim0.event W e he h.1, fun hz => (h.2 hz).vars rfl rfl⟩
  literal cc v x := ⟨fun W a W' hx h => ⟨(mean_prim0.literal cc v x).kw _ _ _ hx h.1, fun hz => (h.2 hz).of (fr_getLiteral.fr _ _ _ hx)⟩⟩
  updLiteral cc v x t := ⟨fun W a W' hx h => ⟨(mean_prim0.updLiteral cc v x t).kw _ _ _ hx h.1, fun hz => (h.2 hz).of (fr_updateLiteral.fr _ _ _ hx)⟩⟩

theorem mf_updateUpperLit {lvl v : Nat} {l x s : Int} (h0 : z → lvl = 0) : Kw (MF β σ z W0) (updateUpperLit cc lvl v l x s) := by
  have hP := mf_prim0 (β := β) (σ := σ) (z := z) (W0 := W0)
  have hu : Kw (MF β σ z W0) (updateUpper lvl v x) := ⟨fun W a W' hx h => ⟨mean_updateUpper hx h.1, fun hz => by rw [h0 hz] at hx; exact (h.2 hz).updateUpper hx⟩⟩
  unfold updateUpperLit; kw_auto

theorem mf_updateLowerLit {lvl v : Nat} {l x s : Int} (h0 : z → lvl = 0) : Kw (MF β σ z W0) (updateLowerLit cc lvl v l x s) := by
  have hP := mf_prim0 (β := β) (σ := σ) (z := z) (W0 := W0)
  have hu : Kw (MF β σ z W0) (updateLower lvl v x) := ⟨fun W a W' hx h => ⟨mean_updateLower hx h.1, fun hz => by rw [h0 hz] at hx; exact (h.2 hz).updateLower hx⟩⟩
  unfold updateLowerLit; kw_auto

end Clingcon
