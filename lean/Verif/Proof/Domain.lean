import Verif.Proof.Order

/-! Bound propagation posts valid clauses. -/
set_option linter.unusedSimpArgs false

namespace Clingcon
open Spec

variable {β : Nat → Bool} {σ : Nat → Int} {F : List VarState × Book} {m : Bool} {L : List Lvl} {α : Type}

/-- Faithful states with given levels. -/
def InvL (β : Nat → Bool) (σ : Nat → Int) (L : List Lvl) (W : World) : Prop := Inv β σ W ∧ W.book.levels = L

theorem Tr.toL {x : SM α} {p : α → Prop} (h : ∀ F, Tr β σ m (InvF β σ F) x (fun a W => InvF β σ F W ∧ p a)) :
    Tr β σ m (InvL β σ L) x (fun a W => InvL β σ L W ∧ p a) := by
  intro W a W' hx
  refine ⟨(h (frame W) _ _ _ hx).1, ?_⟩
  rintro ⟨hi, hl⟩ hr
  obtain ⟨⟨g1, g2⟩, g3⟩ := (h (frame W) _ _ _ hx).2 ⟨hi, rfl⟩ hr
  refine ⟨⟨g1, ?_⟩, g3⟩
  have : (frame W').2.levels = (frame W).2.levels := by rw [g2]
  exact this.trans hl

theorem InvL.log {e : SEv} {W : World} (h : InvL β σ L W) (he : evHolds β e) : InvL β σ L { W with log := e :: W.log } :=
  ⟨h.1.log he, h.2⟩
theorem InvF.log {e : SEv} {W : World} (h : InvF β σ F W) (he : evHolds β e) : InvF β σ F { W with log := e :: W.log } :=
  ⟨h.1.log he, h.2⟩

theorem tr_addClauseL {cc : CC} {c : List Int} (h : ∃ l ∈ c, litTrue β l) :
    Tr β σ m (InvL β σ L) (addClause cc c) (fun _ W => InvL β σ L W) := Tr.addClause (fun _ _ hW _ => hW.log h)
theorem tr_addClauseF {cc : CC} {c : List Int} (h : ∃ l ∈ c, litTrue β l) :
    Tr β σ m (InvF β σ F) (addClause cc c) (fun _ W => InvF β σ F W) := Tr.addClause (fun _ _ hW _ => hW.log h)
theorem tr_ccPropagateL {cc : CC} : Tr β σ m (InvL β σ L) (ccPropagate cc) (fun _ W => InvL β σ L W) :=
  Tr.ccPropagate (fun _ _ hW => hW.log trivial)
theorem tr_ccPropagateF {cc : CC} : Tr β σ m (InvF β σ F) (ccPropagate cc) (fun _ W => InvF β σ F W) :=
  Tr.ccPropagate (fun _ _ hW => hW.log trivial)

/-- Reading leaves everything unchanged. -/
theorem tr_read {P : World → Prop} {x : SM α} (h : ∀ W a W', x W = .ok (a, W') → W' = W) : Tr β σ m P x (fun _ W => P W) := by
  intro W a W' hx
  have := h _ _ _ hx
  subst this
  exact ⟨Grow.refl _ _, fun hP _ => hP⟩

theorem tr_qTrue {P : World → Prop} {cc : CC} {l : Int} : Tr β σ m P (qTrue cc l) (fun _ W => P W) :=
  tr_read (fun _ _ _ h => (qTrue_iff.mp h).2)
theorem tr_qLevel {P : World → Prop} {cc : CC} : Tr β σ m P (qLevel cc) (fun a W => P W ∧ a = cc.level) := by
  intro W a W' hx
  obtain ⟨rfl, rfl⟩ := qLevel_iff.mp hx
  exact ⟨Grow.refl _ _, fun hP _ => ⟨hP, rfl⟩⟩
theorem tr_litmapAt {P : World → Prop} {l : Int} : Tr β σ m P (litmapAt l) (fun e W => P W ∧ e = entryAt W.litmap l) := by
  intro W a W' hx
  obtain ⟨rfl, rfl⟩ := litmapAt_iff.mp hx
  exact ⟨Grow.refl _ _, fun hP _ => ⟨hP, rfl⟩⟩

theorem tr_propagateVariables {cc : CC} {s : Int} {ls : List Int} : ∀ {r : Int}, r ≠ 0 →
    (∀ l ∈ ls, s * l ≠ 0) → (∀ l ∈ ls, litTrue β r → litTrue β (s * l)) →
    ls.Pairwise (fun a b => litTrue β (s * a) → litTrue β (s * b)) →
    Tr β σ m (InvL β σ L) (propagateVariables cc s r ls) (fun _ W => InvL β σ L W) := by
  induction ls with
  | nil => intro r _ _ _ _; exact Tr.pure (fun _ h => h)
  | cons l ls ih =>
    intro r hr0 hn hr hp
    unfold propagateVariables
    refine Tr.bind tr_qTrue (fun b => ?_)
    refine Tr.ite (fun _ => Tr.pure (fun _ h => h)) (fun _ => ?_)
    refine Tr.bind (tr_addClauseL ?_) (fun b => ?_)
    · by_cases h : litTrue β r
      · exact ⟨_, by simp, hr l (by simp) h⟩
      · exact ⟨-r, by simp, (litTrue_neg hr0).mpr h⟩
    refine Tr.ite (fun _ => Tr.pure (fun _ h => h)) (fun _ => ?_)
    refine Tr.bind tr_qLevel (fun b => ?_)
    rw [List.pairwise_cons] at hp
    refine Tr.pre ?_ (P' := InvL β σ L) (fun _ h => h.1)
    refine Tr.ite (fun _ => ?_) (fun _ => ?_)
    · exact ih (hn l (by simp)) (fun x hx => hn x (by simp [hx])) (fun x hx => hp.1 x hx) hp.2
    · exact ih hr0 (fun x hx => hn x (by simp [hx])) (fun x hx => hr x (by simp [hx])) hp.2

/-- Change of a bound without change of the table. -/
theorem Inv.newBounds {W : World} {v : Nat} {vs vs' : VarState} (h : Inv β σ W) (hv : W.vars[v]? = some vs)
    (ht : vs'.table = vs.table) (h1 : vs.minBound ≤ vs'.minBound) (h2 : vs'.maxBound ≤ vs.maxBound)
    (h3 : vs'.minBound ≤ σ v) (h4 : σ v ≤ vs'.maxBound) : Inv β σ { W with vars := W.vars.set v vs' } := by
  refine h.vars (VarState.wf_bounds (h.wf _ _ hv) ht h1 h2) ?_ ⟨h3, h4⟩
  intro k l hm
  rw [VarState.with_congr ht] at hm
  exact h.good.table _ _ hv k l hm

theorem stack_pushedLower {vs : VarState} {lvl : Nat} (h : vs.pushedLower lvl = true) : vs.lowerStack ≠ [] := by
  unfold VarState.pushedLower at h; intro e; rw [e] at h; cases h
theorem stack_pushedUpper {vs : VarState} {lvl : Nat} (h : vs.pushedUpper lvl = true) : vs.upperStack ≠ [] := by
  unfold VarState.pushedUpper at h; intro e; rw [e] at h; cases h

theorem min_of_stack {vs : VarState} {x : Int} (h : vs.lowerStack ≠ []) : ({ vs with lower := x } : VarState).minBound = vs.minBound := by
  unfold VarState.minBound
  cases e : vs.lowerStack with
  | nil => exact absurd e h
  | cons p t => dsimp only; rw [List.getLast?_cons]
theorem max_of_stack {vs : VarState} {x : Int} (h : vs.upperStack ≠ []) : ({ vs with upper := x } : VarState).maxBound = vs.maxBound := by
  unfold VarState.maxBound
  cases e : vs.upperStack with
  | nil => exact absurd e h
  | cons p t => dsimp only; rw [List.getLast?_cons]

theorem tr_updateUpper {lvl var : Nat} {value : Int} (h0 : lvl = 0 → σ var ≤ value) :
    Tr β σ m (InvL β σ L) (updateUpper lvl var value) (fun _ W => InvL β σ L W) := by
  intro W u W' h
  refine ⟨ext_updateUpper.ext _ _ _ h, ?_⟩
  rintro ⟨hi, hl⟩ hr
  unfold updateUpper at h
  simp only [smok] at h
  obtain ⟨vs, W1, ⟨hv, rfl⟩, _, W2, h2, _, W3, ⟨ha, rfl⟩, _, W4, rfl, rfl⟩ := h
  have hw2 : Inv β σ W3 ∧ W3.book.levels = L ∧ W3.vars[var]? = some vs := by
    rcases h2 with ⟨-, rfl⟩ | ⟨-, rfl⟩
    · exact ⟨hi.book _, hl, hv⟩
    · exact ⟨hi, hl, hv⟩
  obtain ⟨i2, l2, v2⟩ := hw2
  simp only [decide_eq_true_eq] at ha
  have hb := i2.good.bound _ _ v2
  refine ⟨Inv.book (Inv.newBounds i2 v2 (vs' := { (if (decide (lvl > 0) && !vs.pushedUpper lvl) = true then vs.pushUpper lvl else vs) with upper := value }) ?_ ?_ ?_ ?_ ?_) _, l2⟩
  · split_ifs <;> rfl
  · split_ifs <;> exact le_refl _
  · split_ifs with hc
    · rw [max_of_stack (by simp [VarState.pushUpper]), VarState.pushUpper_max]
    · rw [if_neg hc] at ha
      exact VarState.maxBound_mono (fun _ => ha)
  · split_ifs <;> exact hb.1
  · split_ifs with hc
    · rw [max_of_stack (by simp [VarState.pushUpper]), VarState.pushUpper_max]; exact hb.2
    · by_cases hs : vs.upperStack = []
      · have : ({ vs with upper := value } : VarState).maxBound = value := by
          unfold VarState.maxBound; dsimp only; rw [hs]; rfl
        rw [this]
        apply h0
        by_contra hne
        apply hc
        have : vs.pushedUpper lvl = false := by unfold VarState.pushedUpper; rw [hs]
        rw [this]; simp; omega
      · rw [max_of_stack hs]; exact hb.2

theorem tr_updateLower {lvl var : Nat} {value : Int} (h0 : lvl = 0 → value < σ var) :
    Tr β σ m (InvL β σ L) (updateLower lvl var value) (fun _ W => InvL β σ L W) := by
  intro W u W' h
  refine ⟨ext_updateLower.ext _ _ _ h, ?_⟩
  rintro ⟨hi, hl⟩ hr
  unfold updateLower at h
  simp only [smok] at h
  obtain ⟨vs, W1, ⟨hv, rfl⟩, _, W2, h2, _, W3, ⟨ha, rfl⟩, _, W4, rfl, rfl⟩ := h
  have hw2 : Inv β σ W3 ∧ W3.book.levels = L ∧ W3.vars[var]? = some vs := by
    rcases h2 with ⟨-, rfl⟩ | ⟨-, rfl⟩
    · exact ⟨hi.book _, hl, hv⟩
    · exact ⟨hi, hl, hv⟩
  obtain ⟨i2, l2, v2⟩ := hw2
  simp only [decide_eq_true_eq] at ha
  have hb := i2.good.bound _ _ v2
  refine ⟨Inv.book (Inv.newBounds i2 v2 (vs' := { (if (decide (lvl > 0) && !vs.pushedLower lvl) = true then vs.pushLower lvl else vs) with lower := value + 1 }) ?_ ?_ ?_ ?_ ?_) _, l2⟩
  · split_ifs <;> rfl
  · split_ifs with hc
    · exact le_of_eq ((min_of_stack (vs := vs.pushLower lvl) (by simp [VarState.pushLower])).trans (VarState.pushLower_min vs lvl)).symm
    · rw [if_neg hc] at ha
      exact VarState.minBound_mono (fun _ => ha)
  · split_ifs <;> exact le_refl _
  · split_ifs with hc
    · rw [min_of_stack (by simp [VarState.pushLower]), VarState.pushLower_min]; exact hb.1
    · by_cases hs : vs.lowerStack = []
      · have : ({ vs with lower := value + 1 } : VarState).minBound = value + 1 := by
          unfold VarState.minBound; dsimp only; rw [hs]; rfl
        rw [this]
        have : value < σ var := by
          apply h0
          by_contra hne
          apply hc
          have : vs.pushedLower lvl = false := by unfold VarState.pushedLower; rw [hs]
          rw [this]; simp; omega
        omega
      · rw [min_of_stack hs]; exact hb.1
  · split_ifs <;> exact hb.2

/-- A variable state of a faithful state. -/
theorem Tr.getVarL {var : Nat} {x : VarState → SM α} {Q : α → World → Prop}
    (hx : ∀ vs, Ext' m (x vs))
    (h : ∀ vs, vs.WF → (∀ k l, (k, l) ∈ vs.with → (litTrue β l ↔ σ var ≤ k)) → vs.minBound ≤ σ var → σ var ≤ vs.maxBound →
      Tr β σ m (InvL β σ L) (x vs) Q) :
    Tr β σ m (InvL β σ L) (Clingcon.getVar var >>= x) Q := by
  refine Tr.bind (Q := fun vs W => InvL β σ L W ∧ (vs.WF ∧ (∀ k l, (k, l) ∈ vs.with → (litTrue β l ↔ σ var ≤ k)) ∧
    vs.minBound ≤ σ var ∧ σ var ≤ vs.maxBound)) (Tr.getVar ?_) (fun vs => ?_)
  · intro vs W hW hv
    have hb := hW.1.good.bound _ _ hv
    exact ⟨hW, hW.1.wf _ _ hv, hW.1.good.table _ _ hv, hb.1, hb.2⟩
  · refine Tr.assume (hx vs) ?_
    rintro ⟨h1, h2, h3, h4⟩
    exact h vs h1 h2 h3 h4

theorem tr_updateUpperLit {cc : CC} {lvl var : Nat} {lit value p : Int} (tt : litTrue β 1) (hl : lit ≠ 0)
    (ht : litTrue β lit → σ var ≤ value) (h0 : lvl = 0 → litTrue β lit) :
    Tr β σ m (InvL β σ L) (updateUpperLit cc lvl var lit value p) (fun _ W => InvL β σ L W) := by
  unfold updateUpperLit
  refine Tr.getVarL (fun vs => by ext_auto) (fun vs _ _ _ _ => ?_)
  refine Tr.ite (fun hc => ?_) (fun hc => ?_)
  · refine Tr.bind (Tr.toL (fun F => tr_getLiteral tt)) (fun l => ?_)
    refine Tr.assume (by ext_auto) ?_
    rintro ⟨hl0, hlt⟩
    refine Tr.bind (tr_addClauseL ?_) (fun b => ?_)
    · by_cases h : litTrue β lit
      · refine ⟨l, by simp, hlt.mpr ?_⟩
        have := ht h
        omega
      · exact ⟨-lit, by simp, (litTrue_neg hl).mpr h⟩
    refine Tr.bind (Q := fun _ => InvL β σ L) (Tr.whenS (fun _ => Tr.discard tr_ccPropagateL) (fun _ _ h => h)) (fun _ => ?_)
    exact Tr.pure (fun _ h => h)
  · refine Tr.bind (Q := fun _ => InvL β σ L) (Tr.whenS (fun _ => tr_updateUpper (fun h => ht (h0 h))) (fun _ _ h => h)) (fun _ => ?_)
    refine Tr.getVarL (fun vs => by ext_auto) (fun vs hwf htab _ _ => ?_)
    refine Tr.bind (Q := fun _ => InvL β σ L) (Tr.assertS (fun _ _ h => h)) (fun _ => ?_)
    refine Tr.bind tr_qTrue (fun b => ?_)
    refine Tr.ite (fun _ => Tr.pure (fun _ h => h)) (fun _ => ?_)
    obtain ⟨s1, s2⟩ := VarState.withGt_spec hwf value
    refine tr_propagateVariables hl ?_ ?_ ?_
    · intro l hm
      obtain ⟨⟨k, l'⟩, hm2, rfl⟩ := List.mem_map.mp hm
      have := VarState.with_nonzero hwf ((s2 k l').mp hm2).2
      simpa using this
    · intro l hm hr
      obtain ⟨⟨k, l'⟩, hm2, rfl⟩ := List.mem_map.mp hm
      have h1 := (s2 k l').mp hm2
      rw [one_mul]
      refine (htab k l' h1.2).mpr ?_
      have := ht hr
      omega
    · rw [List.pairwise_map]
      refine List.Pairwise.imp_of_mem ?_ s1
      rintro ⟨k, l⟩ ⟨k', l'⟩ hm hm' hlt hk
      simp only [one_mul] at hk ⊢
      have h1 := (s2 k l).mp hm
      have h2 := (s2 k' l').mp hm'
      refine (htab _ _ h2.2).mpr ?_
      have := (htab _ _ h1.2).mp hk
      dsimp only at hlt
      omega

theorem tr_updateLowerLit {cc : CC} {lvl var : Nat} {lit value p : Int} (tt : litTrue β 1) (hl : lit ≠ 0)
    (ht : litTrue β lit → value < σ var) (h0 : lvl = 0 → litTrue β lit) :
    Tr β σ m (InvL β σ L) (updateLowerLit cc lvl var lit value p) (fun _ W => InvL β σ L W) := by
  unfold updateLowerLit
  refine Tr.getVarL (fun vs => by ext_auto) (fun vs _ _ _ _ => ?_)
  refine Tr.ite (fun hc => ?_) (fun hc => ?_)
  · refine Tr.bind (Tr.toL (fun F => tr_getLiteral tt)) (fun l => ?_)
    refine Tr.assume (by ext_auto) ?_
    rintro ⟨hl0, hlt⟩
    refine Tr.bind (tr_addClauseL ?_) (fun b => ?_)
    · by_cases h : litTrue β lit
      · refine ⟨-l, by simp, (litTrue_neg hl0).mpr (fun hh => ?_)⟩
        have := ht h
        have := hlt.mp hh
        omega
      · exact ⟨-lit, by simp, (litTrue_neg hl).mpr h⟩
    refine Tr.bind (Q := fun _ => InvL β σ L) (Tr.whenS (fun _ => Tr.discard tr_ccPropagateL) (fun _ _ h => h)) (fun _ => ?_)
    exact Tr.pure (fun _ h => h)
  · refine Tr.bind (Q := fun _ => InvL β σ L) (Tr.whenS (fun _ => tr_updateLower (fun h => ht (h0 h))) (fun _ _ h => h)) (fun _ => ?_)
    refine Tr.getVarL (fun vs => by ext_auto) (fun vs hwf htab _ _ => ?_)
    refine Tr.bind (Q := fun _ => InvL β σ L) (Tr.assertS (fun _ _ h => h)) (fun _ => ?_)
    refine Tr.bind tr_qTrue (fun b => ?_)
    refine Tr.ite (fun _ => Tr.pure (fun _ h => h)) (fun _ => ?_)
    obtain ⟨s1, s2⟩ := VarState.withLt_spec hwf value
    refine tr_propagateVariables hl ?_ ?_ ?_
    · intro l hm
      obtain ⟨⟨k, l'⟩, hm2, rfl⟩ := List.mem_map.mp hm
      have := VarState.with_nonzero hwf ((s2 k l').mp hm2).2
      simpa using this
    · intro l hm hr
      obtain ⟨⟨k, l'⟩, hm2, rfl⟩ := List.mem_map.mp hm
      have h1 := (s2 k l').mp hm2
      have h0 := VarState.with_nonzero hwf h1.2
      rw [neg_one_mul, litTrue_neg h0]
      intro hh
      have := (htab k l' h1.2).mp hh
      have := ht hr
      omega
    · rw [List.pairwise_map]
      refine List.Pairwise.imp_of_mem ?_ s1
      rintro ⟨k, l⟩ ⟨k', l'⟩ hm hm' hlt hk
      have h1 := (s2 k l).mp hm
      have h2 := (s2 k' l').mp hm'
      simp only [neg_one_mul] at hk ⊢
      rw [litTrue_neg (VarState.with_nonzero hwf h1.2)] at hk
      rw [litTrue_neg (VarState.with_nonzero hwf h2.2)]
      intro hh
      apply hk
      refine (htab _ _ h1.2).mpr ?_
      have := (htab _ _ h2.2).mp hh
      dsimp only at hlt
      omega

end Clingcon
