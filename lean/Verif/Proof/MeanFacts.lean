import Verif.Proof.Mean

/-! Facts and integrating literals, going back in time. -/
set_option linter.unusedSimpArgs false
set_option linter.unusedVariables false
set_option linter.unnecessarySeqFocus false
namespace Clingcon
open Spec VarState

variable {α γ : Type} {W W0 W1 W' : World} {cc : CC} {r : Bool} {β : Nat → Bool} {σ : Nat → Int} {z : Prop}

theorem updateUpperLit_factmap {lvl v : Nat} {l x s : Int} (hi : TI W) (h : updateUpperLit cc lvl v l x s W = .ok (r, W')) : W'.factmap = W.factmap := by
  unfold updateUpperLit at h
  rw [bind_iff] at h
  obtain ⟨vs, W1, h1, h⟩ := h
  obtain ⟨hv, rfl⟩ := getVar_iff.mp h1
  split_ifs at h with hc
  · rw [bind_iff] at h
    obtain ⟨m, W2, h2, h⟩ := h
    have f2 := (getLiteral_eff hi.wf (by have := hi.pos; omega) h2).factmap
    simp only [smok] at h
    obtain ⟨b, W3, ⟨-, rfl⟩, _, W4, h4, -, rfl⟩ := h
    rcases h4 with ⟨-, c, -, rfl⟩ | ⟨-, rfl⟩ <;> exact f2
  · rw [bind_iff] at h
    obtain ⟨_, W2, h2, h⟩ := h
    have f2 : W2.factmap = W1.factmap := by
      rcases whenS_iff.mp h2 with ⟨-, h2⟩ | ⟨-, rfl⟩
      · exact (updateUpper_ord h2).2.2.1
      · rfl
    simp only [smok] at h
    obtain ⟨vs, W3, ⟨-, rfl⟩, _, W4, ⟨-, rfl⟩, b, W5, ⟨rfl, rfl⟩, h⟩ := h
    rcases h with ⟨-, -, rfl⟩ | ⟨-, h⟩
    · exact f2
    · obtain ⟨log, rfl⟩ := propagateVariables_log h
      exact f2

theorem updateLowerLit_factmap {lvl v : Nat} {l x s : Int} (hi : TI W) (h : updateLowerLit cc lvl v l x s W = .ok (r, W')) : W'.factmap = W.factmap := by
  unfold updateLowerLit at h
  rw [bind_iff] at h
  obtain ⟨vs, W1, h1, h⟩ := h
  obtain ⟨hv, rfl⟩ := getVar_iff.mp h1
  split_ifs at h with hc
  · rw [bind_iff] at h
    obtain ⟨m, W2, h2, h⟩ := h
    have f2 := (getLiteral_eff hi.wf (by have := hi.pos; omega) h2).factmap
    simp only [smok] at h
    obtain ⟨b, W3, ⟨-, rfl⟩, _, W4, h4, -, rfl⟩ := h
    rcases h4 with ⟨-, c, -, rfl⟩ | ⟨-, rfl⟩ <;> exact f2
  · rw [bind_iff] at h
    obtain ⟨_, W2, h2, h⟩ := h
    have f2 : W2.factmap = W1.factmap := by
      rcases whenS_iff.mp h2 with ⟨-, h2⟩ | ⟨-, rfl⟩
      · exact (updateLower_ord h2).2.2.1
      · rfl
    simp only [smok] at h
    obtain ⟨vs, W3, ⟨-, rfl⟩, _, W4, ⟨-, rfl⟩, b, W5, ⟨rfl, rfl⟩, h⟩ := h
    rcases h with ⟨-, -, rfl⟩ | ⟨-, h⟩
    · exact f2
    · obtain ⟨log, rfl⟩ := propagateVariables_log h
      exact f2

theorem updateUpperLit_var {lvl v : Nat} {l x s : Int} (h : updateUpperLit cc lvl v l x s W = .ok (r, W')) : v < W.vars.length := by
  unfold updateUpperLit at h
  rw [bind_iff] at h
  obtain ⟨vs, W1, h1, h⟩ := h
  exact (List.getElem?_eq_some_iff.mp (getVar_iff.mp h1).1).1

theorem updateLowerLit_var {lvl v : Nat} {l x s : Int} (h : updateLowerLit cc lvl v l x s W = .ok (r, W')) : v < W.vars.length := by
  unfold updateLowerLit at h
  rw [bind_iff] at h
  obtain ⟨vs, W1, h1, h⟩ := h
  exact (List.getElem?_eq_some_iff.mp (getVar_iff.mp h1).1).1

/-- A fact is removed after the bound has been changed. -/
theorem mean_dropFact {f x : Int} {var : Nat} {u : Unit} (hi : TI W) (ht : litTrue β 1) (hb : if f = TRUE_LIT then mxF (frame W) var ≤ x else x < mnF (frame W) var)
    (h : dropFact f var x W = .ok (u, W')) : Mean β σ W W' := by
  have t := hi.ti_dropFact h
  have fr := fr_dropFact.fr _ _ _ h
  unfold dropFact at h
  simp only [smok] at h
  obtain ⟨vs, W1, ⟨h1, rfl⟩, old, W2, ⟨h2, rfl⟩, _, W3, ⟨h3, rfl⟩, _, W4, ⟨ps, vs4, h4, rfl, rfl⟩, vs', W5, ⟨h5, rfl⟩, rfl⟩ := h
  have hd := unsetLiteral_eff (hi.wf _ _ h1) h5
  refine ⟨t, ⟨[], rfl⟩, by rw [frame_len fr], fun ha hm => ⟨⟨fun v k l ho => ?_, meets_frame fr hm.bound, fun f v k p hp => hm.facts f v k p hp⟩, fun _ _ _ hh => Or.inl hh⟩⟩
  have len : var < W3.vars.length := (List.getElem?_eq_some_iff.mp h1).1
  have bnd := meets_frame fr hm.bound var len
  rcases ord_set' (vs' := vs') (W' := { W3 with litmap := linkP vs4 0 x W3.litmap, vars := W3.vars.set var vs' }) rfl h1 ho with ⟨rfl, hq⟩ | hq
  · by_cases hk : k = x
    · subst hk
      obtain ⟨o, e1, e2⟩ := getLiteral_ok (hi.wf _ _ h1) (Or.inr ⟨l, hq⟩)
      rw [h2] at e1
      injection e1 with e1
      subst e1
      rw [(e2 l).mpr hq] at h3
      have h3 : l = if f = TRUE_LIT then TRUE_LIT else -TRUE_LIT := by simpa using h3
      split_ifs at h3 hb with hf
      · subst h3
        exact ⟨fun _ => by omega, fun _ => ht⟩
      · subst h3
        refine ⟨fun hh => ?_, fun hh => by omega⟩
        exact absurd hh (by
          unfold litTrue at ht ⊢
          simpa [TRUE_LIT] using ht)
    · exact hm.table v k l (ord_at rfl h1 ((hd.mem _ _).mpr ⟨hk, hq⟩))
  · exact hm.table v k l hq

/-- A literal that is true on the top level becomes a fact. -/
theorem mean_makeFact {olit fact : Int} {u : Unit} (hi : TI W) (hf : fact = 1 ∨ fact = -1) (ht : litTrue β 1) (hl : olit ≠ 0 → AllHold β W.log → (litTrue β olit ↔ fact = 1))
    (h : makeFact olit fact W = .ok (u, W')) : Mean β σ W W' := by
  have h1 : fact.natAbs = 1 := by rcases hf with rfl | rfl <;> rfl
  have t := hi.ti_makeFact h1 h
  have fr := fr_makeFact.fr _ _ _ h
  unfold makeFact at h
  simp only [smok] at h
  obtain ⟨e, W1, ⟨rfl, rfl⟩, h⟩ := h
  rcases h with ⟨hv, h⟩ | ⟨hv, rfl⟩
  · obtain ⟨vs, W2, ⟨g1, rfl⟩, old, W3, ⟨g2, rfl⟩, _, W4, ⟨g3, rfl⟩, vs', W5, ⟨g4, rfl⟩, _, W6, rfl, _, W7,
      ⟨ps, vs2, g5, rfl, rfl⟩, e2, W8, ⟨rfl, rfl⟩, _, W9, rfl, rfl⟩ := h
    obtain ⟨v0, v1, v2, v3⟩ := entry_valid hv
    have hs := setLiteral_eff (hi.wf _ _ g1) (by rcases hf with rfl | rfl <;> decide) g4
    refine ⟨t, ⟨[], rfl⟩, by rw [frame_len fr], fun ha hm => ⟨⟨fun v k l ho => ?_, meets_frame fr hm.bound, fun f v k p hp => hm.facts f v k p (List.mem_append_left _ hp)⟩, fun _ _ _ hh => Or.inl hh⟩⟩
    rcases ord_set' (vs' := vs') (W' := { W5 with vars := W5.vars.set (entryAt W5.litmap olit).var vs' }) rfl g1 ho with ⟨rfl, hq⟩ | hq
    · by_cases hk : k = (entryAt W5.litmap olit).value
      · subst hk
        obtain ⟨o, e1, e2⟩ := getLiteral_ok (hi.wf _ _ g1) (Or.inr ⟨l, hq⟩)
        rw [g2] at e1
        injection e1 with e1
        subst e1
        rw [(e2 l).mpr hq] at g3
        have g3 : l = olit := by simpa using g3
        subst g3
        have := hm.table _ _ _ (ord_at rfl g1 ((hs.mem _ fact).mpr (by rw [if_pos rfl])))
        rw [← this, hl v0 ha]
        rcases hf with rfl | rfl
        · simp [ht]
        · refine ⟨fun e => absurd e (by decide), fun e => ?_⟩
          exact absurd e (by
            unfold litTrue at ht ⊢
            simpa using ht)
      · exact hm.table _ k l (ord_at rfl g1 ((hs.mem _ _).mpr (by rw [if_neg hk]; exact hq)))
    · exact hm.table v k l hq
  · exact Mean.refl hi

/-- The facts are integrated. -/
theorem mf_propagateFacts (hz : z) (ht : litTrue β 1) : ∀ {fs : List (Int × Nat × Int × Int)} {W W' : World} {r : Bool}, MF β σ z W0 W →
    propagateFacts cc 0 fs W = .ok (r, W') → MF β σ z W0 W' ∧ W'.factmap = W.factmap ∧ Tight (frame W) (frame W') ∧
      (r = true → ∀ f v k p, (f, v, k, p) ∈ fs → v < W'.vars.length ∧ if f = TRUE_LIT then upF (frame W') v ≤ k else k < loF (frame W') v)
  | [], W, W', r, hm, h => by
    obtain ⟨rfl, rfl⟩ := pure_iff.mp h
    exact ⟨hm, rfl, Tight.refl _, fun _ f v k p hp => by cases hp⟩
  | (f, var, x, p) :: fs, W, W', r, hm, h => by
    have ti := hm.1.ti
    have tg := (kw_propagateFacts (tight_prim (F := frame W))).kw _ _ _ h (Tight.refl _)
    unfold propagateFacts at h
    rw [bind_iff] at h
    obtain ⟨ok, W1, h1, h⟩ := h
    have key : MF β σ z W0 W1 ∧ W1.factmap = W.factmap ∧ var < W.vars.length ∧ (ok = true → if f = TRUE_LIT then upF (frame W1) var ≤ x else x < loF (frame W1) var) := by
      split_ifs at h1 ⊢
      · exact ⟨(mf_updateUpperLit (fun _ => rfl)).kw _ _ _ h1 hm, updateUpperLit_factmap ti h1, updateUpperLit_var h1, (updateUpperLit_bounds h1).2.2⟩
      · exact ⟨(mf_updateLowerLit (fun _ => rfl)).kw _ _ _ h1 hm, updateLowerLit_factmap ti h1, updateLowerLit_var h1, fun e => by have := (updateLowerLit_bounds h1).2.2 e; omega⟩
    obtain ⟨m1, f1, lv, b1⟩ := key
    cases ok with
    | false =>
      obtain ⟨rfl, rfl⟩ := pure_iff.mp h
      exact ⟨m1, f1, tg, fun e => by cases e⟩
    | true =>
      simp only [Bool.not_true, Bool.false_eq_true, if_false] at h
      rw [bind_iff] at h
      obtain ⟨_, W2, h2, h⟩ := h
      have fl := (m1.2 hz).bounds
      have fr2 := fr_dropFact.fr _ _ _ h2
      have m2 : MF β σ z W0 W2 := ⟨m1.1.trans (mean_dropFact m1.1.ti ht (by rw [fl.1, fl.2]; exact b1 rfl) h2), fun hz => (m1.2 hz).of fr2⟩
      obtain ⟨m3, f3, t3, b3⟩ := mf_propagateFacts hz ht m2 h
      refine ⟨m3, f3.trans ((dropFact_ord m1.1.ti h2).2.1.trans f1), tg, fun e g v k q hq => ?_⟩
      rcases List.mem_cons.mp hq with hq | hq
      · simp only [Prod.mk.injEq] at hq
        obtain ⟨rfl, rfl, rfl, rfl⟩ := hq
        have len := tg.1
        simp only [frame, List.length_map] at len
        refine ⟨by omega, ?_⟩
        have := t3.2 v
        rw [fr2] at this
        have := b1 rfl
        split_ifs at this ⊢ <;> omega
      · exact b3 e g v k q hq

/-- Integrating a literal. -/
theorem mf_updateDomain (he : EnvSound cc β) {l : Int} : Kw (MF β σ (cc.level = 0) W0) (updateDomain cc l) := by
  refine ⟨fun W r W' h hm => ?_⟩
  unfold updateDomain at h
  rw [bind_iff] at h
  obtain ⟨lvl, W1, h1, h⟩ := h
  obtain ⟨el, rfl⟩ := curLevel_level h1
  have hlv : cc.level = 0 → lvl.level = 0 := fun hz => by
    rw [el]
    unfold World.level
    rw [(hm.2 hz).lev]
    rfl
  rw [bind_iff] at h
  obtain ⟨t, W2, h2, h⟩ := h
  obtain ⟨rfl, rfl⟩ := qTrue_iff.mp h2
  rw [bind_iff] at h
  obtain ⟨_, W3, h3, h⟩ := h
  obtain ⟨ht, rfl⟩ := assertS_iff.mp h3
  rw [bind_iff] at h
  obtain ⟨l', W4, h4, h⟩ := h
  have m4 : MF β σ (cc.level = 0) W0 W4 := by
    unfold simplifyLit at h4
    rw [bind_iff] at h4
    obtain ⟨f, W5, h5, h4⟩ := h4
    obtain ⟨rfl, rfl⟩ := qFixed_iff.mp h5
    split_ifs at h4 with hc
    · simp only [smok] at h4
      obtain ⟨_, W6, g1, _, W7, g2, -, e7⟩ := h4
      rw [e7]
      have h0 : cc.level = 0 := by
        simp only [Bool.and_eq_true, beq_iff_eq] at hc
        exact hc.2.1
      have hl : AllHold β W5.log → litTrue β l := fun ha => he.isTrue W5.log l ha ht (Or.inr h0)
      have k1 : Mean β σ W5 W6 := mean_makeFact hm.1.ti (Or.inl rfl) he.tt (fun _ ha => ⟨fun _ => rfl, fun _ => hl ha⟩) g1
      have k2 : Mean β σ W6 W7 := mean_makeFact k1.ti (Or.inr rfl) he.tt (fun hn ha => ⟨fun hh => by
        obtain ⟨new, e⟩ := k1.log
        rw [e] at ha
        have := hl (AllHold.suffix ha)
        exact absurd hh (by rw [litTrue_neg (by omega)]; simpa using this), fun e => by cases e⟩) g2
      exact ⟨hm.1.trans (k1.trans k2), fun hz => ((hm.2 hz).of (fr_makeFact.fr _ _ _ g1)).of (fr_makeFact.fr _ _ _ g2)⟩
    · obtain ⟨-, rfl⟩ := pure_iff.mp h4
      exact hm
  split_ifs at h with hl
  · rw [bind_iff] at h
    obtain ⟨n, W5, h5, h⟩ := h
    obtain ⟨rfl, rfl⟩ := qLevel_iff.mp h5
    rw [bind_iff] at h
    obtain ⟨_, W6, h6, h⟩ := h
    obtain ⟨hz, rfl⟩ := assertS_iff.mp h6
    have hz : cc.level = 0 := by simpa using hz
    rw [bind_iff] at h
    obtain ⟨X, W7, h7, h⟩ := h
    obtain ⟨rfl, rfl⟩ := get_iff.mp h7
    rw [bind_iff] at h
    obtain ⟨b, W8, h8, h⟩ := h
    rw [hlv hz] at h8
    obtain ⟨m8, f8, t8, b8⟩ := mf_propagateFacts hz he.tt m4 h8
    cases b with
    | false =>
      obtain ⟨rfl, rfl⟩ := pure_iff.mp h
      exact m8
    | true =>
      simp only [Bool.not_true, Bool.false_eq_true, if_false] at h
      rw [bind_iff] at h
      obtain ⟨_, W9, h9, h⟩ := h
      obtain ⟨rfl, rfl⟩ := pure_iff.mp h
      rw [modify_iff.mp h9]
      have fl := (m8.2 hz).bounds
      refine ⟨m8.1.trans ⟨m8.1.ti.other rfl rfl rfl, ⟨[], rfl⟩, le_refl _, fun ha mm => ⟨⟨mm.table, mm.bound, fun f v k p hp => ?_⟩, fun _ _ _ hh => Or.inl hh⟩⟩, fun hz => (m8.2 hz).vars rfl rfl⟩
      rw [f8] at hp
      obtain ⟨hv, b⟩ := b8 rfl f v k p hp
      obtain ⟨b1, b2⟩ := mm.bound v hv
      have b1 : mnF (frame W8) v ≤ σ v := b1
      have b2 : σ v ≤ mxF (frame W8) v := b2
      rw [fl.1] at b1
      rw [fl.2] at b2
      split_ifs at b ⊢ <;> omega
  · rw [bind_iff] at h
    obtain ⟨e, W5, h5, h⟩ := h
    obtain ⟨rfl, rfl⟩ := litmapAt_iff.mp h5
    rw [bind_iff] at h
    obtain ⟨ok, W6, h6, h⟩ := h
    have m6 : MF β σ (cc.level = 0) W0 W6 := by
      split_ifs at h6
      · exact (mf_updateUpperLit hlv).kw _ _ _ h6 m4
      · obtain ⟨-, rfl⟩ := pure_iff.mp h6
        exact m4
    cases ok with
    | false =>
      obtain ⟨rfl, rfl⟩ := pure_iff.mp h
      exact m6
    | true =>
      simp only [Bool.not_true, Bool.false_eq_true, if_false] at h
      rw [bind_iff] at h
      obtain ⟨e, W7, h7, h⟩ := h
      obtain ⟨rfl, rfl⟩ := litmapAt_iff.mp h7
      split_ifs at h
      · exact (mf_updateLowerLit hlv).kw _ _ _ h m6
      · obtain ⟨-, rfl⟩ := pure_iff.mp h
        exact m6

end Clingcon
