import Verif.Proof.TranslateClause
import Verif.Proof.Fresh

/-! The translation of linear constraints. -/
set_option linter.unusedSimpArgs false
namespace Clingcon
open Spec

variable {β : Nat → Bool} {σ : Nat → Int} {F : List VarState × Book} {m : Bool} {α : Type}



theorem ext_ratioParts {s : Int} {es : CoVarVec} : Ext' m (ratioParts s es) := by
  induction es with
  | nil => exact Ext'.pure
  | cons e es ih => obtain ⟨x, y⟩ := e; unfold ratioParts; ext_auto
macro_rules | `(tactic| ext_step) => `(tactic| with_reducible exact ext_ratioParts)

theorem ext_weightTranslate {cc : CC} {l s : Int} {es : CoVarVec} : Ext' m (weightTranslate cc l s es) := by
  unfold weightTranslate
  refine Ext'.bind ext_weightLits (fun _ => ?_)
  split
  · exact Ext'.bind ext_addWeight (fun _ => Ext'.pure)
  · exact Ext'.pure

theorem ext_estTake {es : CoVarVec} {f : EFrame} {fs : List EFrame} {e : Int} : Ext' m (estTake es f fs e) := by unfold estTake; ext_auto
macro_rules | `(tactic| ext_step) => `(tactic| with_reducible exact ext_estTake)
theorem ext_estStep {es : CoVarVec} {f : EFrame} {fs : List EFrame} {e x : Int} : Ext' m (estStep es x f fs e) := by unfold estStep; ext_auto
macro_rules | `(tactic| ext_step) => `(tactic| with_reducible exact ext_estStep)
theorem ext_estLoop {es : CoVarVec} {x : Int} : ∀ {k : Nat} {fs : List EFrame} {e : Int}, Ext' m (estLoop es x k fs e) := by
  intro k
  induction k with
  | zero => intro fs cl; cases fs <;> unfold estLoop <;> [exact Ext'.pure; exact Ext'.throw]
  | succ k ih =>
    intro fs e
    cases fs with
    | nil => unfold estLoop; exact Ext'.pure
    | cons f fs =>
      unfold estLoop
      refine Ext'.bind ext_estStep (fun r => ?_)
      cases r with
      | none => exact Ext'.pure
      | some p => exact ih
macro_rules | `(tactic| ext_step) => `(tactic| with_reducible exact ext_estLoop)
theorem ext_clauseEstimate {k : Nat} {es : CoVarVec} {l u x : Int} : Ext' m (clauseEstimate k es l u x) := ext_estLoop

theorem ext_sumTranslate {cc : CC} {tc : TConf} {k : Nat} {c : CState} {lit rhs : Int} {es : CoVarVec} : Ext' m (sumTranslate cc tc k c lit rhs es) := by
  unfold sumTranslate
  refine Ext'.bind ext_qFalse (fun _ => ?_)
  split
  · exact Ext'.pure
  refine Ext'.bind Ext'.assertS (fun _ => Ext'.bind ext_ratioParts (fun _ => ?_))
  split
  · exact ext_weightTranslate
  refine Ext'.bind ext_get (fun _ => ?_)
  split
  · refine Ext'.bind ext_clauseEstimate (fun _ => ?_)
    split
    · exact Ext'.bind ext_clauseTranslate (fun _ => Ext'.pure)
    · exact Ext'.pure
  · exact Ext'.pure

/-- Computations that do not change the state. -/
structure Reads (x : SM α) : Prop where
  reads : ∀ W a W', x W = .ok (a, W') → W' = W

theorem Reads.bind {γ : Type} {x : SM α} {f : α → SM γ} (hx : Reads x) (hf : ∀ a, Reads (f a)) : Reads (x >>= f) := by
  refine ⟨fun W b W' h => ?_⟩
  obtain ⟨a, W1, h1, h2⟩ := bind_iff.mp h
  rw [(hf a).reads _ _ _ h2, hx.reads _ _ _ h1]
theorem Reads.pure {a : α} : Reads (Pure.pure a : SM α) := ⟨fun _ _ _ h => (pure_iff.mp h).2⟩
theorem Reads.ub : Reads (SM.ub : SM α) := ⟨fun _ _ _ h => by cases h⟩
theorem Reads.assertS {b : Bool} : Reads (assertS b) := by
  unfold Clingcon.assertS; split
  · exact Reads.pure
  · exact Reads.ub
theorem Reads.getVar {v : Nat} : Reads (getVar v) := ⟨fun _ _ _ h => (getVar_iff.mp h).2⟩

theorem reads_ratioParts {s : Int} {es : CoVarVec} : Reads (ratioParts s es) := by
  induction es with
  | nil => exact Reads.pure
  | cons e es ih =>
    obtain ⟨x, y⟩ := e; unfold ratioParts
    refine Reads.bind Reads.getVar (fun _ => ?_)
    split <;> exact Reads.bind Reads.assertS (fun _ => Reads.bind ih (fun _ => Reads.pure))

theorem reads_estTake {es : CoVarVec} {f : EFrame} {fs : List EFrame} {e : Int} : Reads (estTake es f fs e) := by
  unfold estTake
  split
  · split
    · exact Reads.ub
    · split <;> exact Reads.pure
  · exact Reads.pure
theorem reads_estStep {es : CoVarVec} {f : EFrame} {fs : List EFrame} {e x : Int} : Reads (estStep es x f fs e) := by
  unfold estStep
  split
  · exact Reads.pure
  refine Reads.bind reads_estTake (fun _ => ?_)
  split
  · split <;> exact Reads.pure
  refine Reads.bind Reads.assertS (fun _ => ?_)
  split
  · exact Reads.ub
  refine Reads.bind Reads.getVar (fun _ => ?_)
  dsimp only
  split <;> exact Reads.pure
theorem reads_estLoop {es : CoVarVec} {x : Int} : ∀ {k : Nat} {fs : List EFrame} {e : Int}, Reads (estLoop es x k fs e) := by
  intro k
  induction k with
  | zero => intro fs cl; cases fs <;> unfold estLoop <;> [exact Reads.pure; exact ⟨fun _ _ _ h => by cases h⟩]
  | succ k ih =>
    intro fs e
    cases fs with
    | nil => unfold estLoop; exact Reads.pure
    | cons f fs =>
      unfold estLoop
      refine Reads.bind reads_estStep (fun r => ?_)
      cases r with
      | none => exact Reads.pure
      | some p => exact ih
theorem reads_clauseEstimate {k : Nat} {es : CoVarVec} {l u x : Int} : Reads (clauseEstimate k es l u x) := reads_estLoop

theorem Reads.tr {x : SM α} (h : Reads x) {P : World → Prop} : Tr β σ m P x (fun _ W => P W) := by
  intro W a W' hx
  rw [h.reads _ _ _ hx]
  exact ⟨Grow.refl _ _, fun hp _ => hp⟩

/-- The constraint holds if its literal is true. -/
theorem tr_sumTranslate {cc : CC} {tc : TConf} {k : Nat} {c : CState} {lit rhs : Int} {es : CoVarVec} (he : EnvSound cc β) (h0 : cc.level = 0) (hl : lit ≠ 0)
    (hne : ∀ e ∈ es, e.1 ≠ 0) (hw : Within (loF F) (upF F) σ es) (hlo : c.lower = leastSum (loF F) (upF F) es) (hup : c.upper = greatestSum (loF F) (upF F) es)
    (hp : m = false → litTrue β lit → wsum σ es ≤ rhs) :
    Tr β σ m (InvF β σ F) (sumTranslate cc tc k c lit rhs es)
      (fun r W => InvF β σ F W ∧ (r = (true, true) → litTrue β lit → wsum σ es ≤ rhs)) := by
  have hd : devSum (loF F) (upF F) σ es = wsum σ es - c.lower := by rw [devSum_eq, hlo]
  have hle : wsum σ es ≤ c.upper := by
    have h1 := devSum_le hw
    rw [rngSum_eq, devSum_eq] at h1
    omega
  have hiff : devSum (loF F) (upF F) σ es ≤ rhs - c.lower ↔ wsum σ es ≤ rhs := by rw [hd]; omega
  unfold sumTranslate
  have hq : Tr β σ m (InvF β σ F) (qFalse cc lit) (fun b W => InvF β σ F W ∧ (b = true → ¬ litTrue β lit)) := by
    intro W b W' h
    obtain ⟨rfl, rfl⟩ := qFalse_iff.mp h
    exact ⟨Grow.refl _ _, fun hi _ => ⟨hi, fun hb => he.isFalse _ _ hi.1.good.posted hb (Or.inr h0)⟩⟩
  refine Tr.bindP hq (fun _ => ?_) (fun b hb => ?_)
  · split
    · exact Ext'.pure
    refine Ext'.bind Ext'.assertS (fun _ => Ext'.bind ext_ratioParts (fun _ => ?_))
    split
    · exact ext_weightTranslate
    refine Ext'.bind ext_get (fun _ => ?_)
    split
    · refine Ext'.bind ext_clauseEstimate (fun _ => ?_)
      split
      · exact Ext'.bind ext_clauseTranslate (fun _ => Ext'.pure)
      · exact Ext'.pure
    · exact Ext'.pure
  refine Tr.ite (fun hc => Tr.pure (fun _ h => ⟨h, fun _ ht => ?_⟩)) (fun hc => ?_)
  · simp only [Bool.or_eq_true, decide_eq_true_eq] at hc
    rcases hc with hc | hc
    · exact absurd ht (hb hc)
    · omega
  refine Tr.bind tr_assertF (fun _ => Tr.bind reads_ratioParts.tr (fun _ => ?_))
  refine Tr.ite (fun _ => ?_) (fun _ => ?_)
  · refine (tr_weightTranslate he h0 hne hw (fun hm ht => hiff.mpr (hp hm ht))).post (fun r W h => ⟨h.1, fun hr ht => hiff.mp (h.2.2 (by rw [hr]) ht)⟩)
  refine Tr.bind (Reads.tr ⟨fun _ _ _ h => (get_iff.mp h).2⟩) (fun _ => ?_)
  refine Tr.ite (fun _ => ?_) (fun _ => Tr.pure (fun _ h => ⟨h, fun h => by cases h⟩))
  refine Tr.bind reads_clauseEstimate.tr (fun t => ?_)
  refine Tr.ite (fun _ => ?_) (fun _ => Tr.pure (fun _ h => ⟨h, fun h => by cases h⟩))
  refine Tr.bindP (tr_clauseTranslate he h0 hl hne hw ?_ (fun hm ht => hiff.mpr (hp hm ht))) (fun _ => Ext'.pure) (fun r hr => ?_)
  · rw [rngSum_eq, hlo, hup]; ring
  · refine Tr.pure (fun _ h => ⟨h, fun hx ht => hiff.mp (hr ?_ ?_ ht)⟩)
    · exact congrArg Prod.fst hx
    · have := congrArg Prod.snd hx; simpa using this

/-! ### New order literals -/

variable {R : World → World → Prop}

theorem Closed.litRange (hR : Closed R) {cc : CC} {v : Nat} : ∀ {n : Nat} {i : Int}, Pres R (litRange cc v n i) := by
  intro n
  induction n with
  | zero => intro i; exact Pres.pure hR
  | succ n ih => intro i; unfold Clingcon.litRange; pres_auto; exact ih
macro_rules | `(tactic| pres_step) => `(tactic| with_reducible refine Closed.litRange (by assumption))
theorem Closed.addWeight (hR : Closed R) {cc : CC} {lit b t : Int} {ws : List (Int × Int)} : Pres R (addWeight cc lit ws b t) := by
  unfold Clingcon.addWeight
  pres_auto
  refine ⟨fun W a W' h => ?_⟩
  rw [modify_iff.mp h]
  exact hR.ev _ _ _ rfl rfl rfl
macro_rules | `(tactic| pres_step) => `(tactic| with_reducible refine Closed.addWeight (by assumption))
theorem Closed.weightLits (hR : Closed R) {cc : CC} {s : Int} {es : CoVarVec} : Pres R (weightLits cc s es) := by
  induction es with
  | nil => exact Pres.pure hR
  | cons e es ih => obtain ⟨a, b⟩ := e; unfold Clingcon.weightLits; pres_auto
macro_rules | `(tactic| pres_step) => `(tactic| with_reducible refine Closed.weightLits (by assumption))
theorem Closed.weightTranslate (hR : Closed R) {cc : CC} {l s : Int} {es : CoVarVec} : Pres R (weightTranslate cc l s es) := by
  unfold Clingcon.weightTranslate; pres_auto
macro_rules | `(tactic| pres_step) => `(tactic| with_reducible refine Closed.weightTranslate (by assumption))
theorem Reads.pres (hR : Closed R) {x : SM α} (h : Reads x) : Pres R x := ⟨fun _ _ _ hx => by rw [h.reads _ _ _ hx]; exact hR.refl _⟩
theorem Closed.clauseTake (hR : Closed R) {cc : CC} {es : CoVarVec} {l : Int} {f : CFrame} {fs : List CFrame} : Pres R (clauseTake cc es l f fs) := by
  unfold Clingcon.clauseTake; pres_auto
theorem Closed.clausePut (hR : Closed R) {c : List Int} {j : Nat} {l : Int} : Pres R (clausePut c j l) := by
  unfold Clingcon.clausePut; pres_auto
macro_rules | `(tactic| pres_step) => `(tactic| with_reducible refine Closed.clauseTake (by assumption))
macro_rules | `(tactic| pres_step) => `(tactic| with_reducible refine Closed.clausePut (by assumption))
theorem Closed.clauseStep (hR : Closed R) {cc : CC} {es : CoVarVec} {l : Int} {b : Bool} {f : CFrame} {fs : List CFrame} {c : List Int} :
    Pres R (clauseStep cc es l b f fs c) := by
  unfold Clingcon.clauseStep; pres_auto
theorem Closed.clauseLoop (hR : Closed R) {cc : CC} {es : CoVarVec} {l : Int} {b : Bool} : ∀ {k : Nat} {fs : List CFrame} {c : List Int},
    Pres R (clauseLoop cc es l b k fs c) := by
  intro k
  induction k with
  | zero => intro fs cl; cases fs <;> unfold Clingcon.clauseLoop <;> [exact Pres.pure hR; exact Pres.throw hR]
  | succ k ih =>
    intro fs e
    cases fs with
    | nil => unfold Clingcon.clauseLoop; exact Pres.pure hR
    | cons f fs =>
      unfold Clingcon.clauseLoop
      refine Pres.bind hR (Closed.clauseStep hR) (fun r => ?_)
      cases r with
      | none => exact Pres.pure hR
      | some p => exact ih
theorem Closed.clauseTranslate (hR : Closed R) {cc : CC} {k : Nat} {l a b : Int} {es : CoVarVec} {t : Bool} : Pres R (clauseTranslate cc k l es a b t) := by
  unfold Clingcon.clauseTranslate
  exact Pres.bind hR (Pres.qFalse hR) (fun _ => Closed.clauseLoop hR)
macro_rules | `(tactic| pres_step) => `(tactic| with_reducible refine Closed.clauseTranslate (by assumption))
theorem Closed.sumTranslate (hR : Closed R) {cc : CC} {tc : TConf} {k : Nat} {c : CState} {lit rhs : Int} {es : CoVarVec} :
    Pres R (sumTranslate cc tc k c lit rhs es) := by
  unfold Clingcon.sumTranslate
  pres_auto
  · exact reads_ratioParts.pres hR
  · exact reads_clauseEstimate.pres hR
macro_rules | `(tactic| pres_step) => `(tactic| with_reducible refine Closed.sumTranslate (by assumption))

end Clingcon
