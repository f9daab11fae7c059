import Verif.Proof.TranslateCount

/-! The translation of objectives. -/
set_option linter.unusedSimpArgs false
namespace Clingcon
open Spec

variable {β : Nat → Bool} {σ : Nat → Int} {F : List VarState × Book} {m : Bool} {α : Type} {W W' : World}

theorem safeMulS_ok {L : Limits} {a b c : Int} (h : safeMul L a b = .ok c) : c = a * b := by
  have key : ∀ x : Int, machine L x = .ok c → c = x := by
    intro x hx
    unfold machine at hx
    split_ifs at hx
    injection hx with hx; exact hx.symm
  have hm : ∀ (x : Res Int) (p : Int → Prop) [DecidablePred p] (e : Err),
      (x >>= fun t => if p t then throw e else mMul L a b) = .ok c → c = a * b := by
    intro x p _ e hx
    cases x with
    | error _ => cases hx
    | ok t =>
      change (if p t then throw e else mMul L a b : Res Int) = .ok c at hx
      by_cases hp : p t
      · rw [if_pos hp] at hx; cases hx
      · rw [if_neg hp] at hx; exact key _ hx
  unfold safeMul at h
  simp only [bind, Except.bind, throw, throwThe, MonadExceptOf.throw, pure, Except.pure] at h
  split_ifs at h
  all_goals (try exact key _ h)
  all_goals
    revert h
    generalize mDiv L _ _ = x
    intro h
    cases x with
    | error _ => cases h
    | ok t =>
      dsimp only at h
      split_ifs at h
      exact key _ h

theorem getLiteral_cost {cc : CC} {var : Nat} {value l : Int} (h : getLiteral cc var value W = .ok (l, W')) :
    minimizeCost β W'.log = minimizeCost β W.log := by
  unfold getLiteral at h
  simp only [smok] at h
  obtain ⟨vs, W1, ⟨hv, rfl⟩, h⟩ := h
  rcases h with ⟨h1, rfl, rfl⟩ | ⟨h1, h⟩
  · rfl
  rcases h with ⟨h2, rfl, rfl⟩ | ⟨h2, h⟩
  · rfl
  obtain ⟨p, W2, ⟨hr, rfl⟩, _, W3, rfl, h⟩ := h
  rcases h with ⟨h3, h⟩ | ⟨h3, rfl, rfl⟩
  · obtain ⟨n, W4, ⟨rfl, rfl⟩, vs', W5, ⟨hwr, rfl⟩, _, W6, rfl, _, W7, ⟨hne, vs2, hv2, hne2, rfl⟩, _, W8, rfl, _, W9, rfl, rfl, rfl⟩ := h
    rfl
  · rfl

/-- Faithful states with a value of the objective. -/
def InvC (β : Nat → Bool) (σ : Nat → Int) (F : List VarState × Book) (c : Int) (W : World) : Prop := InvF β σ F W ∧ minimizeCost β W.log = c

theorem tr_getLiteralC {cc : CC} {var : Nat} {value c : Int} (tt : litTrue β 1) :
    Tr β σ m (InvC β σ F c) (getLiteral cc var value) (fun l W => InvC β σ F c W ∧ (l ≠ 0 ∧ (litTrue β l ↔ σ var ≤ value))) := by
  intro W l W' h
  obtain ⟨g1, g2⟩ := tr_getLiteral (F := F) (σ := σ) (m := m) tt W l W' h
  refine ⟨g1, fun hi ha => ?_⟩
  obtain ⟨h1, h2, h3⟩ := g2 hi.1 ha
  exact ⟨⟨h1, by rw [getLiteral_cost h]; exact hi.2⟩, h2, h3⟩

open Classical in
theorem tr_addMinimize {l w c : Int} :
    Tr β σ m (InvC β σ F c) (addMinimize l w) (fun _ W => InvC β σ F (c + if litTrue β l then w else 0) W) := by
  unfold addMinimize
  refine Tr.modify (fun _ => Grow.ev rfl rfl) (fun W hW _ => ⟨hW.1.log trivial, ?_⟩)
  show weightSum β [(l, w)] + minimizeCost β W.log = _
  rw [hW.2, weightSum_cons]
  simp only [weightSum]
  ring

theorem ext_addMinimize {l w : Int} : Ext' m (addMinimize l w) := Ext'.modify (fun _ => Grow.ev rfl rfl)

theorem ext_minimizeValues {cc : CC} {co : Int} {var : Nat} : ∀ {n : Nat} {value : Int}, Ext' m (minimizeValues cc co var n value) := by
  intro n
  induction n with
  | zero => intro v; exact Ext'.pure
  | succ n ih => intro v; unfold minimizeValues; exact Ext'.bind ext_getLiteral (fun _ => Ext'.bind ext_addMinimize (fun _ => ih))

open Classical in
theorem tr_minimizeValues {cc : CC} {co : Int} {var : Nat} (tt : litTrue β 1) : ∀ {n : Nat} {value c : Int},
    Tr β σ m (InvC β σ F c) (minimizeValues cc co var n value) (fun _ W => InvC β σ F (c + co * min (max (σ var - value) 0) n) W) := by
  intro n
  induction n with
  | zero =>
    intro v c
    refine Tr.pure (fun _ h => ?_)
    rw [show min (max (σ var - v) 0) ((0 : Nat) : Int) = 0 by omega]
    simpa using h
  | succ n ih =>
    intro v c
    unfold minimizeValues
    refine Tr.bindP (tr_getLiteralC tt) (fun _ => Ext'.bind ext_addMinimize (fun _ => ext_minimizeValues)) (fun l hl => ?_)
    refine Tr.bind tr_addMinimize (fun _ => ih.post (fun _ W h => ?_))
    have hk : c + (if litTrue β (-l) then co else 0) + co * min (max (σ var - (v + 1)) 0) n = c + co * min (max (σ var - v) 0) ((n + 1 : Nat) : Int) := by
      rw [litTrue_neg hl.1, hl.2]
      by_cases hs : σ var ≤ v
      · rw [if_neg (by simpa using hs)]
        rw [show max (σ var - v) 0 = 0 by omega, show max (σ var - (v + 1)) 0 = 0 by omega, min_eq_left (by omega), min_eq_left (by omega)]; ring
      · rw [if_pos hs]
        have : min (max (σ var - v) 0) ((n + 1 : Nat) : Int) = min (max (σ var - (v + 1)) 0) n + 1 := by omega
        rw [this]; ring
    rw [← hk]
    exact h

theorem tr_getVarC {var : Nat} {c : Int} : Tr β σ m (InvC β σ F c) (getVar var)
    (fun vs W => InvC β σ F c W ∧ (vs.minBound ≤ σ var ∧ σ var ≤ vs.maxBound)) :=
  Tr.getVar (fun W vs hW hv => ⟨hW, hW.1.1.good.bound _ _ hv⟩)

theorem ext_minimizeElems {cc : CC} {es : CoVarVec} : Ext' m (minimizeElems cc es) := by
  induction es with
  | nil => exact Ext'.pure
  | cons e es ih =>
    obtain ⟨co, v⟩ := e
    unfold minimizeElems
    exact Ext'.bind Ext'.getVar (fun _ => Ext'.bind Ext'.liftRes (fun _ => Ext'.bind ext_addMinimize (fun _ => Ext'.bind ext_minimizeValues (fun _ => ih))))

open Classical in
theorem tr_minimizeElems {cc : CC} (tt : litTrue β 1) : ∀ {es : CoVarVec} {c : Int},
    Tr β σ m (InvC β σ F c) (minimizeElems cc es) (fun _ W => InvC β σ F (c + wsum σ es) W) := by
  intro es
  induction es with
  | nil => intro c; exact Tr.pure (fun _ h => by simpa [wsum] using h)
  | cons e es ih =>
    intro c
    obtain ⟨co, v⟩ := e
    unfold minimizeElems
    refine Tr.bindP tr_getVarC (fun _ => ?_) (fun vs hv => ?_)
    · exact Ext'.bind Ext'.liftRes (fun _ => Ext'.bind ext_addMinimize (fun _ => Ext'.bind ext_minimizeValues (fun _ => ext_minimizeElems)))
    refine Tr.bindP (p := fun w => w = co * vs.minBound) (Tr.liftRes (fun w hw W h => ⟨h, safeMulS_ok hw⟩)) (fun _ => ?_) (fun w hw => ?_)
    · exact Ext'.bind ext_addMinimize (fun _ => Ext'.bind ext_minimizeValues (fun _ => ext_minimizeElems))
    refine Tr.bind tr_addMinimize (fun _ => Tr.bind (tr_minimizeValues tt) (fun _ => ih.post (fun _ W h => ?_)))
    have hk : c + (if litTrue β TRUE_LIT then w else 0) + co * min (max (σ v - vs.minBound) 0) ((vs.maxBound - vs.minBound).toNat : Int) + wsum σ es =
        c + wsum σ ((co, v) :: es) := by
      rw [if_pos (show litTrue β TRUE_LIT from tt), hw, wsum_cons, show min (max (σ v - vs.minBound) 0) ((vs.maxBound - vs.minBound).toNat : Int) = σ v - vs.minBound by omega]
      ring
    rw [← hk]
    exact h

theorem reads_requiredLiterals {es : CoVarVec} : Reads (requiredLiterals es) := by
  induction es with
  | nil => exact Reads.pure
  | cons e es ih => obtain ⟨a, b⟩ := e; unfold requiredLiterals; exact Reads.bind Reads.getVar (fun _ => Reads.bind ih (fun _ => Reads.pure))

/-- The frame after translating objectives. -/
def withFlag (F : List VarState × Book) : List VarState × Book := (F.1, { F.2 with translateMinimize := true })

open Classical in
theorem tr_minimizeTranslate {cc : CC} {tc : TConf} {adjust c : Int} {es : CoVarVec} (tt : litTrue β 1) :
    Tr β σ m (InvC β σ F c) (minimizeTranslate cc tc adjust es)
      (fun r W => r.1 = true ∧ (if r.2 then InvC β σ (withFlag F) (c + (wsum σ es - adjust)) W else InvC β σ F c W)) := by
  unfold minimizeTranslate
  refine Tr.bind (Reads.tr ⟨fun _ _ _ h => (get_iff.mp h).2⟩) (fun W0 => Tr.bind reads_requiredLiterals.tr (fun n => ?_))
  refine Tr.ite (fun _ => ?_) (fun _ => Tr.pure (fun _ h => ⟨rfl, h⟩))
  refine Tr.bind (Q := fun _ W => InvC β σ (withFlag F) c W) (Tr.modify (fun _ => Grow.same rfl rfl) (fun W hW _ => ?_)) (fun _ => ?_)
  · refine ⟨⟨⟨⟨?_, ?_, ?_, ?_, ?_, ?_⟩, ?_⟩, ?_⟩, hW.2⟩
    · exact hW.1.1.good.pos
    · exact hW.1.1.good.table
    · exact hW.1.1.good.bound
    · exact hW.1.1.good.litmap
    · exact hW.1.1.good.facts
    · exact hW.1.1.good.posted
    · exact hW.1.1.wf
    · rw [← hW.1.2]; rfl
  refine Tr.bind tr_addMinimize (fun _ => Tr.bind (tr_minimizeElems tt) (fun _ => Tr.pure (fun W h => ⟨rfl, ?_⟩)))
  rw [if_pos rfl]
  have hk : c + (if litTrue β TRUE_LIT then -adjust else 0) + wsum σ es = c + (wsum σ es - adjust) := by rw [if_pos (show litTrue β TRUE_LIT from tt)]; ring
  rw [← hk]
  exact h

end Clingcon
