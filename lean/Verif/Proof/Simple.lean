import Verif.Proof.TableEff

/-! Facts, domains and constraints over a single variable. -/
set_option linter.unusedSimpArgs false

namespace Clingcon
open Spec VarState

variable {β : Nat → Bool} {σ : Nat → Int} {F : List VarState × Book} {m : Bool} {L : List Lvl} {α : Type} {W W' : World}

theorem entry_valid {mp : List LitmapEntry} {l : Int} (h : (entryAt mp l).valid l = true) :
    l ≠ 0 ∧ mp[mapOffset l]? = some (entryAt mp l) ∧ (entryAt mp l).prev ≠ 0 ∧ (entryAt mp l).sign = LitmapEntry.getSign l := by
  unfold LitmapEntry.valid at h
  simp at h
  have h0 : l ≠ 0 := by
    rintro rfl
    exact h.1 rfl
  refine ⟨h0, ?_, h.1, h.2.symm⟩
  unfold entryAt at h ⊢
  rw [if_neg h0] at h ⊢
  rw [List.getD_eq_getElem?_getD] at h ⊢
  cases e : mp[mapOffset l]? with
  | none => rw [e] at h; exact absurd rfl h.1
  | some x => rfl

theorem Inv.entry {l : Int} (h : Inv β σ W) (hv : (entryAt W.litmap l).valid l = true) :
    litTrue β l ↔ σ (entryAt W.litmap l).var ≤ (entryAt W.litmap l).value := by
  obtain ⟨h0, h1, h2, h3⟩ := entry_valid hv
  have := h.good.litmap _ _ h1 h2
  rw [h3, litOf_offset h0] at this
  exact this

theorem tr_makeFact {olit fact : Int} (tt : litTrue β 1)
    (hf : (fact = TRUE_LIT ∧ litTrue β olit) ∨ (fact = -TRUE_LIT ∧ ¬ litTrue β olit)) :
    Tr β σ m (InvL β σ L) (makeFact olit fact) (fun _ W => InvL β σ L W) := by
  intro W u W' h
  refine ⟨ext_makeFact.ext _ _ _ h, ?_⟩
  rintro ⟨hi, hl⟩ hr
  unfold makeFact at h
  simp only [smok] at h
  obtain ⟨e, W1, ⟨rfl, rfl⟩, h⟩ := h
  rcases h with ⟨hv, h⟩ | ⟨-, rfl⟩
  · obtain ⟨vs, W2, ⟨g1, rfl⟩, old, W3, ⟨g2, rfl⟩, _, W4, ⟨g3, rfl⟩, vs', W5, ⟨g4, rfl⟩, _, W6, rfl, _, W7,
      ⟨ps, vs2, g5, rfl, rfl⟩, e2, W8, ⟨rfl, rfl⟩, _, W9, rfl, rfl⟩ := h
    have ht := hi.entry hv
    have hs := setLiteral_eff (hi.wf _ _ g1) (by rcases hf with h | h <;> rw [h.1] <;> decide) g4
    have hx : litTrue β fact ↔ σ (entryAt W5.litmap olit).var ≤ (entryAt W5.litmap olit).value := by
      rw [← ht]
      rcases hf with h | h
      · rw [h.1]; exact ⟨fun _ => h.2, fun _ => tt⟩
      · rw [h.1]; exact ⟨fun h' => absurd h' (litTrue_false tt), fun h' => absurd h' h.2⟩
    have i1 := (hi.setTab g1 hs hx).litmap (SubMap.link vs2 fact (entryAt W5.litmap olit).value _)
    have key : ∃ e3, (linkP vs2 fact (entryAt W5.litmap olit).value W5.litmap)[mapOffset olit]? = some e3 ∧
        e3.var = (entryAt W5.litmap olit).var ∧ e3.value = (entryAt W5.litmap olit).value := by
      obtain ⟨h0, h1, h2, h3⟩ := entry_valid hv
      have gen : ∀ (mp : List LitmapEntry) (l : Int) (upd : LitmapEntry → LitmapEntry) (i : Nat) (e : LitmapEntry),
          (∀ e, (upd e).var = e.var ∧ (upd e).value = e.value) → mp[i]? = some e →
          ∃ e3, (relinkP l upd mp)[i]? = some e3 ∧ e3.var = e.var ∧ e3.value = e.value := by
        intro mp l upd i e hu he
        unfold relinkP
        split_ifs with hc
        · rw [List.getElem?_set]
          split_ifs with c1 c2
          · refine ⟨_, rfl, ?_⟩
            obtain ⟨-, hh, -⟩ := entry_valid hc.2
            rw [c1, he] at hh
            injection hh with hh
            rw [← hh]
            exact hu e
          · subst c1
            rw [List.getElem?_eq_none_iff.mpr (by omega)] at he; cases he
          · exact ⟨e, he, rfl, rfl⟩
        · exact ⟨e, he, rfl, rfl⟩
      obtain ⟨e3, k1, k2, k3⟩ := gen W5.litmap (vs2.litLt (entryAt W5.litmap olit).value)
        (fun e => { e with succ := if fact ≠ 0 then fact else vs2.litSucc (entryAt W5.litmap olit).value }) _ _ (fun _ => ⟨rfl, rfl⟩) h1
      obtain ⟨e4, k4, k5, k6⟩ := gen _ (vs2.litGt (entryAt W5.litmap olit).value)
        (fun e => { e with prev := if fact ≠ 0 then fact else vs2.litPrev (entryAt W5.litmap olit).value }) _ _ (fun _ => ⟨rfl, rfl⟩) k1
      exact ⟨e4, k4, k5.trans k2, k6.trans k3⟩
    obtain ⟨e3, k1, k2, k3⟩ := key
    have ke : entryAt (linkP vs2 fact (entryAt W5.litmap olit).value W5.litmap) olit = e3 := by
      rw [entryAt, if_neg (entry_valid hv).1, List.getD_eq_getElem?_getD, k1]; rfl
    refine ⟨(Inv.litmap (Inv.fact i1 ?_) (SubMap.unset _ _ _ rfl)), hl⟩
    dsimp only
    rw [ke, k2, k3]
    rcases hf with h | h
    · rw [if_pos h.1, ← hx, h.1]; exact tt
    · rw [if_neg (by rw [h.1]; decide)]
      by_contra hc
      exact h.2 (ht.mpr (by omega))
  · exact ⟨hi, hl⟩

theorem Tr.readP {P : World → Prop} {x : SM α} {p : α → World → Prop} (h : ∀ W a W', x W = .ok (a, W') → W' = W ∧ p a W) :
    Tr β σ m P x (fun a W => P W ∧ p a W) := by
  intro W a W' hx
  obtain ⟨rfl, h2⟩ := h _ _ _ hx
  exact ⟨Grow.refl _ _, fun hP _ => ⟨hP, h2⟩⟩

theorem tr_simplifyLit {cc : CC} {lit : Int} (he : EnvSound cc β) (hl0 : lit ≠ 0)
    (htr : cc.level = 0 → litTrue β lit) :
    Tr β σ m (InvL β σ L) (simplifyLit cc lit) (fun l W => InvL β σ L W ∧ (l = TRUE_LIT ∨ l = lit)) := by
  unfold simplifyLit
  refine Tr.bind (Q := fun _ => InvL β σ L) (tr_read (fun _ _ _ h => (qFixed_iff.mp h).2)) (fun b => ?_)
  refine Tr.ite (fun hc => ?_) (fun hc => Tr.pure (fun _ h => ⟨h, Or.inr rfl⟩))
  simp only [Bool.and_eq_true, beq_iff_eq] at hc
  have ht := htr hc.2.1
  refine Tr.bind (tr_makeFact he.tt (Or.inl ⟨rfl, ht⟩)) (fun _ => ?_)
  refine Tr.bind (tr_makeFact he.tt (Or.inr ⟨rfl, ?_⟩)) (fun _ => Tr.pure (fun _ h => ⟨h, Or.inl rfl⟩))
  rw [litTrue_neg hl0]
  simpa using ht

theorem tr_dropFact {f v : Int} {var : Nat} : Tr β σ m (InvL β σ L) (dropFact f var v) (fun _ W => InvL β σ L W) := by
  intro W a W' hx
  refine ⟨ext_dropFact.ext _ _ _ hx, ?_⟩
  rintro ⟨hi, hl⟩ hr
  unfold dropFact at hx
  simp only [bind_iff, getVar_iff, liftRes_iff, assertS_iff, discard_iff, updateLitmap_iff, setVar_iff] at hx
  obtain ⟨vs, W1, ⟨g1, rfl⟩, old, W2, ⟨g2, rfl⟩, _, W3, ⟨g3, rfl⟩, _, W4, ⟨ps, vs2, g4, rfl, rfl⟩, vs', W5, ⟨g5, rfl⟩, rfl⟩ := hx
  have hd := unsetLiteral_eff (hi.wf _ _ g1) g5
  exact ⟨(hi.delTab g1 hd).litmap (SubMap.link vs2 0 v _), hl⟩

theorem tr_dropLit {l : Int} {e : LitmapEntry} : Tr β σ m (InvL β σ L) (dropLit l e) (fun _ W => InvL β σ L W) := by
  intro W a W' hx
  refine ⟨ext_dropLit.ext _ _ _ hx, ?_⟩
  rintro ⟨hi, hl⟩ hr
  unfold dropLit at hx
  simp only [smok] at hx
  obtain ⟨vs, W1, ⟨g1, rfl⟩, vs', W2, ⟨g2, rfl⟩, _, W3, rfl, _, W4, ⟨ps, vs2, g3, rfl, rfl⟩, rfl⟩ := hx
  have hd := unsetLiteral_eff (hi.wf _ _ g1) g2
  have i1 := Inv.litmap (hi.delTab g1 hd) (SubMap.link vs2 0 e.value _)
  exact ⟨i1.litmap (SubMap.unset _ _ _ rfl), hl⟩

theorem tr_propagateFacts {cc : CC} {lvl : Nat} {fs : List (Int × Nat × Int × Int)} (tt : litTrue β 1)
    (hf : ∀ f v k p, (f, v, k, p) ∈ fs → (if f = TRUE_LIT then σ v ≤ k else k < σ v)) :
    Tr β σ m (InvL β σ L) (propagateFacts cc lvl fs) (fun _ W => InvL β σ L W) := by
  induction fs with
  | nil => exact Tr.pure (fun _ h => h)
  | cons f fs ih =>
    obtain ⟨f, v, k, p⟩ := f
    have hf0 := hf f v k p (by simp)
    unfold propagateFacts
    refine Tr.bind (Q := fun _ => InvL β σ L) ?_ (fun ok => ?_)
    · refine Tr.ite (fun hc => ?_) (fun hc => ?_)
      · rw [if_pos hc] at hf0
        exact tr_updateUpperLit tt (by decide) (fun _ => hf0) (fun _ => tt)
      · rw [if_neg hc] at hf0
        exact tr_updateLowerLit tt (by decide) (fun _ => hf0) (fun _ => tt)
    · refine Tr.ite (fun _ => Tr.pure (fun _ h => h)) (fun _ => ?_)
      have rest := ih (fun f v k p h => hf f v k p (by simp [h]))
      exact Tr.bind tr_dropFact (fun _ => rest)

theorem tr_updateDomain {cc : CC} {lit : Int} (he : EnvSound cc β) (hl0 : lit ≠ 0)
    (hlev : ∀ l, L.head? = some l → l.level = 0 → cc.level = 0) :
    Tr β σ false (InvL β σ L) (updateDomain cc lit) (fun _ W => InvL β σ L W) := by
  unfold updateDomain
  refine Tr.bind (Q := fun l W => InvL β σ L W ∧ L.head? = some l) ?_ (fun lvl => ?_)
  · intro W a W' hx
    obtain ⟨h1, rfl⟩ := curLevel_iff.mp hx
    exact ⟨Grow.refl _ _, fun hP _ => ⟨hP, by rw [← hP.2]; exact h1⟩⟩
  refine Tr.assume (by ext_auto; exact Ext'.modify (fun _ => Grow.clear rfl)) (fun hlvl => ?_)
  refine Tr.bind (Q := fun b W => InvL β σ L W ∧ (b = true → cc.level = 0 → litTrue β lit)) ?_ (fun b => ?_)
  · intro W a W' hx
    obtain ⟨rfl, rfl⟩ := qTrue_iff.mp hx
    exact ⟨Grow.refl _ _, fun hP _ => ⟨hP, fun h1 h2 => he.isTrue _ _ hP.1.good.posted h1 (Or.inr h2)⟩⟩
  refine Tr.assume (by ext_auto; exact Ext'.modify (fun _ => Grow.clear rfl)) (fun hb => ?_)
  refine Tr.bind (Q := fun _ W => InvL β σ L W ∧ b = true) (Tr.assertS (fun h1 _ h => ⟨h, h1⟩)) (fun _ => ?_)
  refine Tr.assume (by ext_auto; exact Ext'.modify (fun _ => Grow.clear rfl)) (fun hb1 => ?_)
  have htr := hb hb1
  refine Tr.bind (tr_simplifyLit he hl0 htr) (fun l => ?_)
  refine Tr.assume (by ext_auto; exact Ext'.modify (fun _ => Grow.clear rfl)) (fun hl => ?_)
  refine Tr.ite (fun hc => ?_) (fun hc => ?_)
  · refine Tr.bind tr_qLevel (fun lv => ?_)
    refine Tr.bind (Q := fun _ W => InvL β σ L W) (Tr.assertS (fun _ _ h => h.1)) (fun _ => ?_)
    refine Tr.bind (Q := fun W0 W => InvL β σ L W ∧ (∀ f v k p, (f, v, k, p) ∈ W0.factmap → (if f = TRUE_LIT then σ v ≤ k else k < σ v))) ?_ (fun W0 => ?_)
    · intro W a W' hx
      obtain ⟨rfl, rfl⟩ := get_iff.mp hx
      exact ⟨Grow.refl _ _, fun hP _ => ⟨hP, hP.1.good.facts⟩⟩
    refine Tr.assume (by ext_auto; exact Ext'.modify (fun _ => Grow.clear rfl)) (fun hf => ?_)
    refine Tr.bind (tr_propagateFacts he.tt hf) (fun b => ?_)
    refine Tr.ite (fun _ => Tr.pure (fun _ h => h)) (fun _ => ?_)
    refine Tr.bind (Q := fun _ W => InvL β σ L W) (Tr.modify (fun _ => Grow.clear rfl) (fun W hW _ => ?_)) (fun _ => Tr.pure (fun _ h => h))
    exact ⟨⟨⟨hW.1.good.pos, hW.1.good.table, hW.1.good.bound, hW.1.good.litmap, by simp, hW.1.good.posted⟩, hW.1.wf⟩, hW.2⟩
  · have hll : l = lit := by rcases hl with h | h; exact absurd h hc; exact h
    subst hll
    have ent : ∀ x : Int, Tr β σ false (InvL β σ L) (litmapAt x)
        (fun e W => InvL β σ L W ∧ (e.valid x = true → (litTrue β x ↔ σ e.var ≤ e.value))) := by
      intro x W a W' hx
      obtain ⟨rfl, rfl⟩ := litmapAt_iff.mp hx
      exact ⟨Grow.refl _ _, fun hP _ => ⟨hP, fun hv => hP.1.entry hv⟩⟩
    have h00 : lvl.level = 0 → litTrue β l := fun h => htr (hlev lvl hlvl h)
    refine Tr.bind (ent l) (fun e => ?_)
    refine Tr.assume (by ext_auto) (fun he1 => ?_)
    refine Tr.bind (Q := fun _ => InvL β σ L) ?_ (fun ok => ?_)
    · refine Tr.ite (fun hv => ?_) (fun _ => Tr.pure (fun _ h => h))
      exact tr_updateUpperLit he.tt hl0 (he1 hv).mp h00
    · refine Tr.ite (fun _ => Tr.pure (fun _ h => h)) (fun _ => ?_)
      refine Tr.bind (ent (-l)) (fun e => ?_)
      refine Tr.assume (by ext_auto) (fun he2 => ?_)
      refine Tr.ite (fun hv => ?_) (fun _ => Tr.pure (fun _ h => h))
      refine tr_updateLowerLit he.tt hl0 ?_ h00
      intro ht
      by_contra hcc
      exact (litTrue_neg hl0).mp ((he2 hv).mpr (by omega)) ht

/-- Removing literals of an extended program. -/
theorem tr_updateStep {ms n : Nat} : ∀ {o : Nat}, Tr β σ m (InvL β σ L) (updateStep ms n o) (fun _ W => InvL β σ L W) := by
  induction n with
  | zero => intro o; exact Tr.pure (fun _ h => h)
  | succ n ih =>
    intro o
    unfold updateStep
    refine Tr.bind (Q := fun _ => InvL β σ L) (tr_read (fun _ _ _ h => (litmapAt_iff.mp h).2)) (fun e => ?_)
    refine Tr.bind (Q := fun _ => InvL β σ L) ?_ (fun _ => ih)
    exact Tr.whenS (fun hc => tr_dropLit) (fun _ _ h => h)

theorem tr_solverUpdate {ms : Nat} : Tr β σ m (InvL β σ L) (solverUpdate ms) (fun _ W => InvL β σ L W) := by
  unfold solverUpdate
  refine Tr.bind (Q := fun _ => InvL β σ L) (Tr.modify (fun _ => Grow.same rfl rfl) (fun W hW _ => ⟨hW.1.book _, hW.2⟩)) (fun _ => ?_)
  exact Tr.bind (Q := fun _ => InvL β σ L) (tr_read (fun _ _ _ h => (get_iff.mp h).2)) (fun _ => tr_updateStep)

end Clingcon
