import Verif.Proof.Safe
import Verif.Proof.GivenStep

/-! Integrating literals: no assertion fails. -/
set_option linter.unusedSimpArgs false
set_option linter.unusedVariables false
namespace Clingcon
open Spec VarState

variable {α γ : Type} {W W0 W' : World} {cc : CC} {r : Bool}

/-- The log grows. -/
structure LG (W0 W : World) : Prop where
  ti : TI W
  log : W0.log <:+ W.log

theorem GotLit.suffix {var : Nat} {x l : Int} (h : GotLit W var x l W') : W.log <:+ W'.log := by
  cases h with
  | low => exact List.suffix_rfl
  | high => exact List.suffix_rfl
  | old vs vs' l hv h1 h2 hm hs => exact List.suffix_rfl
  | new vs vs' l hv h1 h2 hm hs hl => exact ((((List.suffix_cons _ _).trans (List.suffix_cons _ _)).trans (List.suffix_cons _ _)).trans (List.suffix_cons _ _))

theorem UpdLit.suffix {var : Nat} {x l : Int} {t : Bool} (h : UpdLit W var x t l W') : W.log <:+ W'.log := by
  cases h with
  | got _ _ g => exact g.suffix
  | fact vs vs' hv h1 h2 h3 hs => exact List.suffix_rfl

theorem log_makeFact {a b : Int} {u : Unit} (h : makeFact a b W = .ok (u, W')) : W'.log = W.log := by
  unfold makeFact at h
  simp only [smok] at h
  obtain ⟨e, W1, ⟨rfl, rfl⟩, h⟩ := h
  rcases h with ⟨hv, h⟩ | ⟨hv, rfl⟩
  · obtain ⟨vs, W2, ⟨g1, rfl⟩, old, W3, ⟨g2, rfl⟩, _, W4, ⟨g3, rfl⟩, vs', W5, ⟨g4, rfl⟩, _, W6, rfl, _, W7,
      ⟨ps, vs2, g5, rfl, rfl⟩, e2, W8, ⟨rfl, rfl⟩, _, W9, rfl, rfl⟩ := h
    rfl
  · rfl

theorem log_dropFact {f x : Int} {v : Nat} {u : Unit} (h : dropFact f v x W = .ok (u, W')) : W'.log = W.log := by
  unfold dropFact at h
  simp only [smok] at h
  obtain ⟨vs, W1, ⟨h1, rfl⟩, old, W2, ⟨h2, rfl⟩, _, W3, ⟨h3, rfl⟩, _, W4, ⟨ps, vs4, h4, rfl, rfl⟩, vs', W5, ⟨h5, rfl⟩, rfl⟩ := h
  rfl

theorem log_updateStep {m : Nat} : ∀ {n o : Nat} {W W' : World} {u : Unit}, updateStep m n o W = .ok (u, W') → W'.log = W.log
  | 0, o, W, W', u, h => by obtain ⟨-, rfl⟩ := pure_iff.mp h; rfl
  | n + 1, o, W, W', u, h => by
    unfold updateStep at h
    simp only [smok] at h
    obtain ⟨e, W1, ⟨rfl, rfl⟩, _, W2, h2, h3⟩ := h
    rcases h2 with ⟨hc, h2⟩ | ⟨-, rfl⟩
    · unfold dropLit at h2
      simp only [smok] at h2
      obtain ⟨vs, W1, ⟨g1, rfl⟩, vs', W2, ⟨g2, rfl⟩, _, W3, rfl, _, W4, ⟨ps, vs2, g3, rfl, rfl⟩, rfl⟩ := h2
      exact (log_updateStep h3 :)
    · exact log_updateStep h3

theorem log_updateLower {l v : Nat} {x : Int} {u : Unit} (h : updateLower l v x W = .ok (u, W')) : W'.log = W.log := by
  unfold updateLower at h
  simp only [smok] at h
  obtain ⟨vs, W1, ⟨h1, rfl⟩, _, W2, h2, _, W3, ⟨h3, rfl⟩, _, W4, rfl, rfl⟩ := h
  rcases h2 with ⟨-, rfl⟩ | ⟨-, rfl⟩ <;> rfl

theorem log_updateUpper {l v : Nat} {x : Int} {u : Unit} (h : updateUpper l v x W = .ok (u, W')) : W'.log = W.log := by
  unfold updateUpper at h
  simp only [smok] at h
  obtain ⟨vs, W1, ⟨h1, rfl⟩, _, W2, h2, _, W3, ⟨h3, rfl⟩, _, W4, rfl, rfl⟩ := h
  rcases h2 with ⟨-, rfl⟩ | ⟨-, rfl⟩ <;> rfl

theorem log_undoLowerVar {v : Nat} {u : Unit} (h : undoLowerVar v W = .ok (u, W')) : W'.log = W.log := by
  unfold undoLowerVar at h
  simp only [smok] at h
  obtain ⟨vs, W1, ⟨h1, rfl⟩, vs', W2, ⟨h2, rfl⟩, _, W3, rfl, rfl⟩ := h
  rfl

theorem log_undoUpperVar {v : Nat} {u : Unit} (h : undoUpperVar v W = .ok (u, W')) : W'.log = W.log := by
  unfold undoUpperVar at h
  simp only [smok] at h
  obtain ⟨vs, W1, ⟨h1, rfl⟩, vs', W2, ⟨h2, rfl⟩, _, W3, rfl, rfl⟩ := h
  rfl

theorem lg_prim : Prim (LG W0) where
  book _ _ _ h := ⟨h.ti.other rfl rfl rfl, h.log⟩
  event _ _ _ h := ⟨h.ti.other rfl rfl rfl, h.log.trans (List.suffix_cons _ _)⟩
  levels _ _ h := ⟨h.ti.other rfl rfl rfl, h.log⟩
  clear _ h := ⟨h.ti.other rfl rfl rfl, h.log⟩
  literal cc v x := ⟨fun W a W' hx h => ⟨(ti_prim.literal cc v x).kw _ _ _ hx h.ti, h.log.trans (getLiteral_eff h.ti.wf (by have := h.ti.pos; omega) hx).suffix⟩⟩
  updLiteral cc v x t := ⟨fun W a W' hx h => ⟨(ti_prim.updLiteral cc v x t).kw _ _ _ hx h.ti, by
    rcases updateLiteral_eff h.ti.wf (by have := h.ti.pos; omega) hx with ⟨-, t, -, g⟩ | g
    · exact h.log.trans g.suffix
    · exact h.log.trans g.suffix⟩⟩
  mkFact a b hb := ⟨fun W u W' hx h => ⟨(ti_prim.mkFact a b hb).kw _ _ _ hx h.ti, by rw [log_makeFact hx]; exact h.log⟩⟩
  drFact f v x := ⟨fun W u W' hx h => ⟨(ti_prim.drFact f v x).kw _ _ _ hx h.ti, by rw [log_dropFact hx]; exact h.log⟩⟩
  step m n o := ⟨fun W u W' hx h => ⟨(ti_prim.step m n o).kw _ _ _ hx h.ti, by rw [log_updateStep hx]; exact h.log⟩⟩
  updLower hx _ h := ⟨h.ti.ti_updateLower hx, by rw [log_updateLower hx]; exact h.log⟩
  updUpper hx _ h := ⟨h.ti.ti_updateUpper hx, by rw [log_updateUpper hx]; exact h.log⟩
  popLower v := ⟨fun W u W' hx h => ⟨(ti_prim.popLower v).kw _ _ _ hx h.ti, by rw [log_undoLowerVar hx]; exact h.log⟩⟩
  popUpper v := ⟨fun W u W' hx h => ⟨(ti_prim.popUpper v).kw _ _ _ hx h.ti, by rw [log_undoUpperVar hx]; exact h.log⟩⟩

theorem LG.refl (h : TI W) : LG W W := ⟨h, List.suffix_rfl⟩

theorem value_suffix (hv : EnvMono cc) {a b : List SEv} {l : Int} {t : Bool} (h : a <:+ b) (hl : cc.value a l = some t) : cc.value b l = some t := by
  obtain ⟨new, rfl⟩ := h
  induction new with
  | nil => exact hl
  | cons e new ih =>
    unfold CC.value at ih ⊢
    split_ifs at ih ⊢
    · exact hv _ _ _ _ ih
    · cases hq : cc.atom (new ++ a) l.natAbs with
      | none => rw [hq] at ih; cases ih
      | some x =>
        rw [hq] at ih
        have := hv e _ _ _ hq
        rw [List.cons_append, this]
        exact ih

theorem isTrue_suffix (hv : EnvMono cc) {a b : List SEv} {l : Int} (h : a <:+ b) (hl : cc.isTrue a l = true) : cc.isTrue b l = true := by
  unfold CC.isTrue at *
  rw [beq_iff_eq] at *
  exact value_suffix hv h hl

/-! ### Integrating a literal -/

theorem simplifyLit_split {l l' : Int} (h : simplifyLit cc l W = .ok (l', W')) :
    (l' = l ∧ W' = W) ∨ (cc.level = 0 ∧ l' = TRUE_LIT ∧ ∃ W1, makeFact l TRUE_LIT W = .ok ((), W1) ∧ makeFact (-l) (-TRUE_LIT) W1 = .ok ((), W')) := by
  unfold simplifyLit at h
  rw [bind_iff] at h
  obtain ⟨f, W1, h1, h⟩ := h
  obtain ⟨rfl, rfl⟩ := qFixed_iff.mp h1
  split_ifs at h with hc
  · simp only [smok] at h
    obtain ⟨_, W2, h2, _, W3, h3, rfl, rfl⟩ := h
    right
    simp only [Bool.and_eq_true, beq_iff_eq] at hc
    exact ⟨hc.2.1, rfl, W2, h2, h3⟩
  · obtain ⟨rfl, rfl⟩ := pure_iff.mp h
    exact Or.inl ⟨rfl, rfl⟩

theorem Ok.simplifyLit {l : Int} (ti : TI W) : Ok (simplifyLit cc l) W := by
  unfold Clingcon.simplifyLit
  refine Ok.step (qFixed_iff.mpr ⟨rfl, rfl⟩) ?_
  split
  · refine Ok.bind (Ok.makeFact ti rfl) (fun _ W1 h1 => Ok.bind (Ok.makeFact (ti.ti_makeFact rfl h1) rfl) (fun _ _ _ => Ok.pure))
  · exact Ok.pure

theorem valid_lt {l : Int} (ti : TI W) (h : (entryAt W.litmap l).valid l = true) : (entryAt W.litmap l).var < W.vars.length := by
  obtain ⟨v0, v1, v2, v3⟩ := entry_valid h
  obtain ⟨-, vs, hv, -⟩ := ti.link _ _ v1 v2
  exact (List.getElem?_eq_some_iff.mp hv).1

/-- Integrating a literal that is true returns. -/
theorem Ok.updateDomain {l : Int} (hf : FC W) (hn : AllNested W) (hl : W.book.levels ≠ []) (ht : cc.isTrue W.log l = true) (h1 : l = TRUE_LIT → cc.level = 0) :
    Ok (updateDomain cc l) W := by
  obtain ⟨lvl, rest, hl⟩ := List.exists_cons_of_ne_nil hl
  unfold Clingcon.updateDomain
  refine Ok.step (curLevel_iff.mpr ⟨by rw [hl]; rfl, rfl⟩) (Ok.step (qTrue_iff.mpr ⟨rfl, rfl⟩) (Ok.stepU (assertS_iff.mpr ⟨ht, rfl⟩) ?_))
  refine Ok.bind (Ok.simplifyLit hf.ti) (fun l' W1 h => ?_)
  have n1 := (kw_simplifyLit nested_prim.toPrimN).kw _ _ _ h hn
  have f1 : FC W1 := by
    rcases simplifyLit_split h with ⟨rfl, rfl⟩ | ⟨-, rfl, W2, g1, g2⟩
    · exact hf
    · exact (hf.makeFact rfl g1).makeFact rfl g2
  split
  · rename_i hl'
    have h0 : cc.level = 0 := by
      rcases simplifyLit_split h with ⟨rfl, rfl⟩ | ⟨h0, -⟩
      · exact h1 hl'
      · exact h0
    refine Ok.step (qLevel_iff.mpr ⟨rfl, rfl⟩) (Ok.stepU (assertS_iff.mpr ⟨by simpa using h0, rfl⟩) (Ok.step (get_iff.mpr ⟨rfl, rfl⟩) ?_))
    refine Ok.bind (Ok.propagateFacts f1 n1) (fun b W2 _ => ?_)
    split
    · exact Ok.pure
    · exact Ok.stepU (modify_iff.mpr rfl) Ok.pure
  · refine Ok.step (litmapAt_iff.mpr ⟨rfl, rfl⟩) (Ok.bind ?_ (fun b W2 h2 => ?_))
    · split
      · rename_i hv
        exact Ok.updateUpperLit f1.ti n1 (valid_lt f1.ti hv)
      · exact Ok.pure
    · have k2 : FS W1.factmap W2 ∧ AllNested W2 := by
        split_ifs at h2
        · exact ⟨(FS.updateUpperLit f1 h2).1, (kw_updateUpperLit nested_prim.toPrimN).kw _ _ _ h2 n1⟩
        · obtain ⟨-, rfl⟩ := pure_iff.mp h2
          exact ⟨f1, n1⟩
      split
      · exact Ok.pure
      · refine Ok.step (litmapAt_iff.mpr ⟨rfl, rfl⟩) ?_
        split
        · rename_i hv
          exact Ok.updateLowerLit k2.1.ti k2.2 (valid_lt k2.1.ti hv)
        · exact Ok.pure

/-- Recorded facts stay in the tables unless there is a conflict on the top level. -/
theorem FC.updateDomain {l : Int} (hf : FC W) (h : Clingcon.updateDomain cc l W = .ok (r, W')) (hr : r = true ∨ cc.level ≠ 0) : FC W' := by
  unfold Clingcon.updateDomain at h
  rw [bind_iff] at h
  obtain ⟨lvl, W1, h1, h⟩ := h
  obtain ⟨-, rfl⟩ := curLevel_level h1
  rw [bind_iff] at h
  obtain ⟨t, W2, h2, h⟩ := h
  obtain ⟨rfl, rfl⟩ := qTrue_iff.mp h2
  rw [bind_iff] at h
  obtain ⟨_, W3, h3, h⟩ := h
  obtain ⟨-, rfl⟩ := assertS_iff.mp h3
  rw [bind_iff] at h
  obtain ⟨l', W4, h4, h⟩ := h
  have f4 : FC W4 := by
    rcases simplifyLit_split h4 with ⟨rfl, rfl⟩ | ⟨-, rfl, W2, g1, g2⟩
    · exact hf
    · exact (hf.makeFact rfl g1).makeFact rfl g2
  split_ifs at h with hl
  · rw [bind_iff] at h
    obtain ⟨n, W5, h5, h⟩ := h
    obtain ⟨rfl, rfl⟩ := qLevel_iff.mp h5
    rw [bind_iff] at h
    obtain ⟨_, W6, h6, h⟩ := h
    obtain ⟨h0, rfl⟩ := assertS_iff.mp h6
    rw [bind_iff] at h
    obtain ⟨X, W7, h7, h⟩ := h
    obtain ⟨rfl, rfl⟩ := get_iff.mp h7
    rw [bind_iff] at h
    obtain ⟨ok, W8, h8, h⟩ := h
    cases ok with
    | false =>
      obtain ⟨rfl, rfl⟩ := pure_iff.mp h
      simp at h0 hr
      exact absurd h0 hr
    | true =>
      simp only [Bool.not_true, Bool.false_eq_true, if_false] at h
      rw [bind_iff] at h
      obtain ⟨_, W9, h9, h⟩ := h
      obtain ⟨rfl, rfl⟩ := pure_iff.mp h
      obtain rfl := modify_iff.mp h9
      exact ⟨((kw_propagateFacts ti_prim.toPrimN).kw _ _ _ h8 f4.ti).other rfl rfl rfl, fun q hq => (List.not_mem_nil hq).elim, List.Pairwise.nil⟩
  · rw [bind_iff] at h
    obtain ⟨e, W5, h5, h⟩ := h
    obtain ⟨rfl, rfl⟩ := litmapAt_iff.mp h5
    rw [bind_iff] at h
    obtain ⟨b, W6, h6, h⟩ := h
    have f6 : FC W6 := by
      split_ifs at h6 with hv
      · obtain ⟨a, e⟩ := FS.updateUpperLit f4 h6
        rw [← e] at a
        exact a
      · obtain ⟨rfl, rfl⟩ := pure_iff.mp h6
        exact f4
    cases b with
    | false =>
      obtain ⟨rfl, rfl⟩ := pure_iff.mp h
      exact f6
    | true =>
      simp only [Bool.not_true, Bool.false_eq_true, if_false] at h
      rw [bind_iff] at h
      obtain ⟨e, W7, h7, h⟩ := h
      obtain ⟨rfl, rfl⟩ := litmapAt_iff.mp h7
      split_ifs at h with hv
      · obtain ⟨a, e⟩ := FS.updateLowerLit f6 h
        rw [← e] at a
        exact a
      · obtain ⟨rfl, rfl⟩ := pure_iff.mp h
        exact f6

end Clingcon
