import Verif.Proof.Sum
import Verif.Model.Check

/-! Functions that change neither bounds of variables nor the bookkeeping of levels and constraints. -/
set_option linter.unusedSimpArgs false
namespace Clingcon
open Spec VarState

variable {α γ : Type} {W W' : World}

/-- The bounds, levels and constraint states stay the same. -/
structure Fr (x : SM α) : Prop where
  fr : ∀ W a W', x W = .ok (a, W') → frame W' = frame W

theorem Fr.bind {x : SM α} {f : α → SM γ} (hx : Fr x) (hf : ∀ a, Fr (f a)) : Fr (x >>= f) := by
  refine ⟨fun W b W' h => ?_⟩
  obtain ⟨a, W1, h1, h2⟩ := SM.bind_ok h
  exact ((hf a).fr _ _ _ h2).trans (hx.fr _ _ _ h1)

theorem Fr.pure {a : α} : Fr (Pure.pure a : SM α) := ⟨fun W b W' h => by obtain ⟨-, rfl⟩ := pure_iff.mp h; rfl⟩
theorem Fr.ub : Fr (SM.ub : SM α) := ⟨fun W b W' h => by cases h⟩
theorem Fr.throw {e : Err} : Fr (throw e : SM α) := ⟨fun W b W' h => by cases h⟩
theorem Fr.whenS {b : Bool} {x : SM Unit} (h : Fr x) : Fr (whenS b x) := by
  unfold Clingcon.whenS; split
  · exact h
  · exact Fr.pure
theorem Fr.assertS {b : Bool} : Fr (assertS b) := by
  unfold Clingcon.assertS; split
  · exact Fr.pure
  · exact Fr.ub
theorem Fr.discard {x : SM α} (h : Fr x) : Fr (Functor.discard x : SM Unit) :=
  Fr.bind (f := fun _ => Pure.pure ()) h (fun _ => Fr.pure)
/-- Functions that only read. -/
theorem Fr.same {x : SM α} (h : ∀ W a W', x W = .ok (a, W') → W' = W) : Fr x := ⟨fun W a W' hx => by rw [h _ _ _ hx]⟩
theorem Fr.modify {f : World → World} (h : ∀ W, frame (f W) = frame W) : Fr (_root_.modify f : SM Unit) :=
  ⟨fun W a W' hx => by rw [modify_iff.mp hx]; exact h W⟩
theorem Fr.liftRes {r : Res α} : Fr (liftRes r) := Fr.same (fun _ _ _ h => (liftRes_iff.mp h).2)
theorem Fr.getVar {v : Nat} : Fr (getVar v) := Fr.same (fun _ _ _ h => (getVar_iff.mp h).2)
theorem Fr.getCS {v : Nat} : Fr (getCS v) := Fr.same (fun _ _ _ h => (getCS_iff.mp h).2)
theorem Fr.curLevel : Fr curLevel := Fr.same (fun _ _ _ h => (curLevel_iff.mp h).2)
theorem Fr.get : Fr (get : SM World) := Fr.same (fun _ _ _ h => (get_iff.mp h).2)
theorem Fr.qTrue {cc : CC} {l : Int} : Fr (qTrue cc l) := Fr.same (fun _ _ _ h => (qTrue_iff.mp h).2)
theorem Fr.qFalse {cc : CC} {l : Int} : Fr (qFalse cc l) := Fr.same (fun _ _ _ h => (qFalse_iff.mp h).2)
theorem Fr.qFixed {cc : CC} {l : Int} : Fr (qFixed cc l) := Fr.same (fun _ _ _ h => (qFixed_iff.mp h).2)
theorem Fr.qValue {cc : CC} {l : Int} : Fr (qValue cc l) := Fr.same (fun _ _ _ h => (qValue_iff.mp h).2)
theorem Fr.qLitLevel {cc : CC} {l : Int} : Fr (qLitLevel cc l) := Fr.same (fun _ _ _ h => (qLitLevel_iff.mp h).2)
theorem Fr.qLevel {cc : CC} : Fr (qLevel cc) := Fr.same (fun _ _ _ h => (qLevel_iff.mp h).2)
theorem Fr.litmapAt {l : Int} : Fr (litmapAt l) := Fr.same (fun _ _ _ h => (litmapAt_iff.mp h).2)
theorem Fr.newLit : Fr newLit := ⟨fun _ _ _ h => by rw [(newLit_iff.mp h).2]; rfl⟩
theorem Fr.addWatch {l : Int} : Fr (addWatch l) := ⟨fun _ _ _ h => by rw [addWatch_iff.mp h]; rfl⟩
theorem Fr.addClause {cc : CC} {c : List Int} : Fr (addClause cc c) := ⟨fun _ _ _ h => by rw [(addClause_iff.mp h).2]; rfl⟩
theorem Fr.addVolatile {cc : CC} {c : List Int} : Fr (addVolatile cc c) := ⟨fun _ _ _ h => by rw [(addVolatile_iff.mp h).2]; rfl⟩
theorem Fr.ccPropagate {cc : CC} : Fr (ccPropagate cc) := ⟨fun _ _ _ h => by rw [(ccPropagate_iff.mp h).2]; rfl⟩
theorem Fr.updateLitmap {var : Nat} {lit value : Int} : Fr (updateLitmap var lit value) :=
  ⟨fun _ _ _ h => by obtain ⟨vs, -, -, rfl⟩ := updateLitmap_iff.mp h; rfl⟩
theorem Fr.unsetEntry {l : Int} : Fr (unsetEntry l) := ⟨fun _ _ _ h => by rw [unsetEntry_iff.mp h]; rfl⟩
theorem Fr.litmapAdd {var : Nat} {lit value : Int} : Fr (litmapAdd var value lit) :=
  ⟨fun _ _ _ h => by obtain ⟨-, vs, -, -, rfl⟩ := litmapAdd_iff.mp h; rfl⟩

/-- One step of proving that the frame is preserved; extended below for each function. -/
syntax "fr_step" : tactic
macro_rules | `(tactic| fr_step) => `(tactic| dsimp only)
macro_rules | `(tactic| fr_step) => `(tactic| intro _)
macro_rules | `(tactic| fr_step) => `(tactic| split)
macro_rules | `(tactic| fr_step) => `(tactic| refine Fr.modify ?_; intro _; rfl)
macro_rules | `(tactic| fr_step) => `(tactic| with_reducible apply Fr.bind)
macro_rules | `(tactic| fr_step) => `(tactic| with_reducible apply Fr.whenS)
macro_rules | `(tactic| fr_step) => `(tactic| with_reducible apply Fr.discard)
macro_rules | `(tactic| fr_step) => `(tactic| with_reducible exact Fr.throw)
macro_rules | `(tactic| fr_step) => `(tactic| with_reducible exact Fr.pure)
macro_rules | `(tactic| fr_step) => `(tactic| with_reducible exact Fr.ub)
macro_rules | `(tactic| fr_step) => `(tactic| with_reducible exact Fr.assertS)
macro_rules | `(tactic| fr_step) => `(tactic| with_reducible exact Fr.liftRes)
macro_rules | `(tactic| fr_step) => `(tactic| with_reducible exact Fr.getVar)
macro_rules | `(tactic| fr_step) => `(tactic| with_reducible exact Fr.getCS)
macro_rules | `(tactic| fr_step) => `(tactic| with_reducible exact Fr.curLevel)
macro_rules | `(tactic| fr_step) => `(tactic| with_reducible exact Fr.get)
macro_rules | `(tactic| fr_step) => `(tactic| with_reducible exact Fr.qTrue)
macro_rules | `(tactic| fr_step) => `(tactic| with_reducible exact Fr.qFalse)
macro_rules | `(tactic| fr_step) => `(tactic| with_reducible exact Fr.qFixed)
macro_rules | `(tactic| fr_step) => `(tactic| with_reducible exact Fr.qValue)
macro_rules | `(tactic| fr_step) => `(tactic| with_reducible exact Fr.qLitLevel)
macro_rules | `(tactic| fr_step) => `(tactic| with_reducible exact Fr.qLevel)
macro_rules | `(tactic| fr_step) => `(tactic| with_reducible exact Fr.litmapAt)
macro_rules | `(tactic| fr_step) => `(tactic| with_reducible exact Fr.newLit)
macro_rules | `(tactic| fr_step) => `(tactic| with_reducible exact Fr.addWatch)
macro_rules | `(tactic| fr_step) => `(tactic| with_reducible exact Fr.addClause)
macro_rules | `(tactic| fr_step) => `(tactic| with_reducible exact Fr.addVolatile)
macro_rules | `(tactic| fr_step) => `(tactic| with_reducible exact Fr.ccPropagate)
macro_rules | `(tactic| fr_step) => `(tactic| with_reducible exact Fr.updateLitmap)
macro_rules | `(tactic| fr_step) => `(tactic| with_reducible exact Fr.unsetEntry)
macro_rules | `(tactic| fr_step) => `(tactic| with_reducible exact Fr.litmapAdd)
macro_rules | `(tactic| fr_step) => `(tactic| assumption)
macro "fr_auto" : tactic => `(tactic| repeat' fr_step)

/-! Functions on tables change only the table. -/

theorem bounds_table {vs : VarState} {t : Table} : ({ vs with table := t } : VarState).bounds = vs.bounds := rfl

theorem getOrAdd_bounds {vs : VarState} {k : Int} {p : Int × VarState} (h : vs.getOrAddLiteral k = .ok p) : p.2.bounds = vs.bounds := by
  unfold getOrAddLiteral at h
  split at h
  · cases hm : vs.mogrify _ with
    | error e => rw [hm] at h; cases h
    | ok o =>
      rw [hm] at h
      simp only [bind, Except.bind] at h
      split at h
      · split at h
        · cases h
        · injection h with h; rw [← h]; rfl
      · injection h with h; rw [← h]; rfl
  · simp only [bind, Except.bind] at h
    split at h
    · cases h
    · injection h with h; rw [← h]

theorem write_bounds {vs vs' : VarState} {k l : Int} (h : vs.writeLiteral k l = .ok vs') : vs'.bounds = vs.bounds := by
  unfold writeLiteral at h
  split at h
  · injection h with h; rw [← h]; rfl
  · simp only [bind, Except.bind] at h
    split at h
    · cases h
    · injection h with h; rw [← h]; rfl

theorem set_bounds {vs vs' : VarState} {k l : Int} (h : vs.setLiteral k l = .ok vs') : vs'.bounds = vs.bounds := by
  unfold setLiteral at h
  split at h
  · cases hm : vs.mogrify _ with
    | error e => rw [hm] at h; cases h
    | ok o =>
      rw [hm] at h
      simp only [bind, Except.bind] at h
      split at h
      · split at h
        · cases h
        · injection h with h; rw [← h]; rfl
      · injection h with h; rw [← h]; rfl
  · simp only [bind, Except.bind] at h
    split at h
    · cases h
    · injection h with h; rw [← h]; rfl

theorem unset_bounds {vs vs' : VarState} {k : Int} (h : vs.unsetLiteral k = .ok vs') : vs'.bounds = vs.bounds := by
  unfold unsetLiteral at h
  split at h
  · injection h with h; rw [← h]; rfl
  · simp only [bind, Except.bind] at h
    split at h
    · cases h
    · injection h with h; rw [← h]; rfl

theorem frame_set {v : Nat} {vs vs' : VarState} (hv : W.vars[v]? = some vs) (h : vs'.bounds = vs.bounds) :
    frame { W with vars := W.vars.set v vs' } = frame W := by
  unfold frame; rw [map_set_bounds hv h]

/-- Reading a variable state and writing one with the same bounds. -/
theorem fr_setVar {v : Nat} {r : VarState → Res VarState} {k : VarState → SM α}
    (hr : ∀ vs vs', r vs = .ok vs' → vs'.bounds = vs.bounds) (hk : ∀ vs, Fr (k vs)) :
    Fr (do let vs ← getVar v; let vs' ← liftRes (r vs); setVar v vs'; k vs') := by
  refine ⟨fun W a W' h => ?_⟩
  simp only [smok] at h
  obtain ⟨vs, W1, ⟨h1, rfl⟩, vs', W2, ⟨h2, rfl⟩, _, W3, rfl, h4⟩ := h
  rw [(hk vs').fr _ _ _ h4, frame_set h1 (hr _ _ h2)]

theorem fr_write {v : Nat} {value l : Int} {vs1 : VarState} {W : World} (h : W.vars[v]? = some vs1) {vs' : VarState}
    (hw : vs1.writeLiteral value l = .ok vs') : frame { W with vars := W.vars.set v vs' } = frame W :=
  frame_set h (write_bounds hw)

theorem fr_getLiteral {cc : CC} {var : Nat} {value : Int} : Fr (getLiteral cc var value) := by
  refine ⟨fun W a W' h => ?_⟩
  unfold Clingcon.getLiteral at h
  simp only [smok] at h
  obtain ⟨vs, W1, ⟨h1, rfl⟩, h⟩ := h
  rcases h with ⟨-, -, rfl⟩ | ⟨-, h⟩
  · rfl
  rcases h with ⟨-, -, rfl⟩ | ⟨-, h⟩
  · rfl
  obtain ⟨p, W2, ⟨h2, rfl⟩, _, W3, rfl, h⟩ := h
  have f1 := frame_set (W := W2) h1 (getOrAdd_bounds h2)
  rcases h with ⟨-, n, W4, ⟨-, rfl⟩, vs', W5, ⟨h5, rfl⟩, _, W6, rfl, _, W7, h7, _, W8, rfl, _, W9, rfl, -, rfl⟩ | ⟨-, -, rfl⟩
  · obtain ⟨-, vs7, -, -, rfl⟩ := h7
    have hv : (W2.vars.set var p.2)[var]? = some p.2 := by
      rw [List.getElem?_set_self]
      exact (List.getElem?_eq_some_iff.mp h1).1
    rw [← f1]
    unfold frame
    dsimp only
    rw [map_set_bounds hv (write_bounds h5)]
  · exact f1

theorem fr_updateLiteral {cc : CC} {var : Nat} {value : Int} {t : Option Bool} : Fr (updateLiteral cc var value t) := by
  refine ⟨fun W a W' h => ?_⟩
  unfold updateLiteral at h
  rw [bind_iff] at h
  obtain ⟨lvl, W0, h0, h⟩ := h
  obtain ⟨rfl, rfl⟩ := qLevel_iff.mp h0
  cases t with
  | none => exact fr_getLiteral.fr _ _ _ h
  | some t =>
  by_cases hl : cc.level > 0
  · simp only [hl, decide_true] at h
    exact fr_getLiteral.fr _ _ _ h
  · simp only [hl, decide_false, smok] at h
    obtain ⟨vs, W1, ⟨h1, rfl⟩, h⟩ := h
    rcases h with ⟨-, -, rfl⟩ | ⟨-, h⟩
    · rfl
    rcases h with ⟨-, -, rfl⟩ | ⟨-, h⟩
    · rfl
    obtain ⟨p, W2, ⟨h2, rfl⟩, _, W3, rfl, h⟩ := h
    have f1 := frame_set (W := W2) h1 (getOrAdd_bounds h2)
    rcases h with ⟨-, vs', W5, ⟨h5, rfl⟩, _, W6, rfl, ps, W7, ⟨vs7, -, -, rfl⟩, _, W8, rfl, -, rfl⟩ | ⟨-, -, rfl⟩
    · have hv : (W2.vars.set var p.2)[var]? = some p.2 := by
        rw [List.getElem?_set_self]
        exact (List.getElem?_eq_some_iff.mp h1).1
      rw [← f1]
      unfold frame
      dsimp only
      rw [map_set_bounds hv (write_bounds h5)]
    · exact f1

macro_rules | `(tactic| fr_step) => `(tactic| with_reducible exact fr_getLiteral)
macro_rules | `(tactic| fr_step) => `(tactic| with_reducible exact fr_updateLiteral)

theorem fr_makeFact {a b : Int} : Fr (makeFact a b) := by
  refine ⟨fun W r W' h => ?_⟩
  unfold makeFact at h
  simp only [smok] at h
  obtain ⟨e, W1, ⟨rfl, rfl⟩, h⟩ := h
  rcases h with ⟨-, vs, W2, ⟨h2, rfl⟩, old, W3, ⟨-, rfl⟩, _, W4, ⟨-, rfl⟩, vs', W5, ⟨h5, rfl⟩, _, W6, rfl, _, W7, ⟨_, vs7, -, -, rfl⟩,
    e, W8, ⟨rfl, rfl⟩, _, W9, rfl, rfl⟩ | ⟨-, rfl⟩
  · exact frame_set h2 (set_bounds h5)
  · rfl
macro_rules | `(tactic| fr_step) => `(tactic| with_reducible exact fr_makeFact)

theorem fr_dropFact {f v : Int} {var : Nat} : Fr (dropFact f var v) := by
  refine ⟨fun W r W' h => ?_⟩
  unfold dropFact at h
  simp only [smok] at h
  obtain ⟨vs, W1, ⟨h1, rfl⟩, old, W2, ⟨-, rfl⟩, _, W3, ⟨-, rfl⟩, _, W4, ⟨_, vs4, -, -, rfl⟩, vs', W5, ⟨h5, rfl⟩, rfl⟩ := h
  exact frame_set h1 (unset_bounds h5)
macro_rules | `(tactic| fr_step) => `(tactic| with_reducible exact fr_dropFact)

theorem fr_dropLit {l : Int} {e : LitmapEntry} : Fr (dropLit l e) := by
  unfold dropLit
  exact fr_setVar (r := fun vs => vs.unsetLiteral e.value) (fun _ _ h => unset_bounds h) (fun _ => by fr_auto)
macro_rules | `(tactic| fr_step) => `(tactic| with_reducible exact fr_dropLit)

theorem fr_updateStep {ms n : Nat} : ∀ {o : Nat}, Fr (updateStep ms n o) := by
  induction n with
  | zero => intro o; exact Fr.pure
  | succ n ih => intro o; unfold updateStep; fr_auto; exact ih
macro_rules | `(tactic| fr_step) => `(tactic| with_reducible exact fr_updateStep)
theorem fr_freeLit {cc : CC} {l value : Int} {var : Nat} : Fr (freeLit cc l var value) := by unfold freeLit; fr_auto
macro_rules | `(tactic| fr_step) => `(tactic| with_reducible exact fr_freeLit)
theorem fr_setLast {v : Nat} {value l : Int} {b : Bool} :
    Fr (do let vs ← getVar v; let vs' ← liftRes (vs.setLiteral value l); setVar v vs'; return b) :=
  fr_setVar (r := fun vs => vs.setLiteral value l) (fun _ _ h => set_bounds h) (fun _ => Fr.pure)
macro_rules | `(tactic| fr_step) => `(tactic| with_reducible exact fr_setLast)
theorem fr_useLit {cc : CC} {lit : Int} {var : Nat} {v : Int} : Fr (useLit cc lit var v) := by unfold useLit; fr_auto
theorem fr_useFact {t : Bool} {var : Nat} {v : Int} : Fr (useFact t var v) := by unfold useFact; fr_auto
macro_rules | `(tactic| fr_step) => `(tactic| with_reducible exact fr_useLit)
macro_rules | `(tactic| fr_step) => `(tactic| with_reducible exact fr_useFact)

theorem fr_propagateVariables {cc : CC} {s : Int} {ls : List Int} : ∀ {r : Int}, Fr (propagateVariables cc s r ls) := by
  induction ls with
  | nil => intro r; exact Fr.pure
  | cons l ls ih => intro r; unfold propagateVariables; fr_auto <;> exact ih
macro_rules | `(tactic| fr_step) => `(tactic| with_reducible exact fr_propagateVariables)
theorem fr_simplifyLit {cc : CC} {lit : Int} : Fr (simplifyLit cc lit) := by unfold simplifyLit; fr_auto
macro_rules | `(tactic| fr_step) => `(tactic| with_reducible exact fr_simplifyLit)
theorem fr_prevTrue {cc : CC} {var : Nat} {p : Option Int} : Fr (prevTrue cc var p) := by cases p <;> unfold prevTrue <;> fr_auto
macro_rules | `(tactic| fr_step) => `(tactic| with_reducible exact fr_prevTrue)
theorem fr_succTrue {cc : CC} {var : Nat} {p : Option Int} : Fr (succTrue cc var p) := by cases p <;> unfold succTrue <;> fr_auto
macro_rules | `(tactic| fr_step) => `(tactic| with_reducible exact fr_succTrue)
theorem fr_canReuse {var : Nat} {value : Int} {b : Bool} : Fr (canReuse var value b) := by unfold canReuse; fr_auto
macro_rules | `(tactic| fr_step) => `(tactic| with_reducible exact fr_canReuse)
theorem fr_addDomLower {cc : CC} {lit : Int} {var : Nat} {dom : List (Int × Int)} : ∀ {p : Option Int},
    Fr (addDomLower cc lit var p dom) := by
  induction dom with
  | nil => intro p; exact Fr.pure
  | cons d dom ih => intro p; obtain ⟨a, b⟩ := d; unfold addDomLower; fr_auto <;> exact ih
macro_rules | `(tactic| fr_step) => `(tactic| with_reducible exact fr_addDomLower)
theorem fr_addDomUpper {cc : CC} {lit : Int} {var : Nat} {dom : List (Int × Int)} : ∀ {p : Option Int},
    Fr (addDomUpper cc lit var p dom) := by
  induction dom with
  | nil => intro p; exact Fr.pure
  | cons d dom ih => intro p; obtain ⟨a, b⟩ := d; unfold addDomUpper; fr_auto <;> exact ih
macro_rules | `(tactic| fr_step) => `(tactic| with_reducible exact fr_addDomUpper)
theorem fr_addDom {cc : CC} {lit : Int} {var : Nat} {dom : List (Int × Int)} : Fr (addDom cc lit var dom) := by
  unfold addDom; fr_auto
macro_rules | `(tactic| fr_step) => `(tactic| with_reducible exact fr_addDom)
theorem fr_sumBounds {es : List (Int × Nat)} : Fr (sumBounds es) := by
  induction es with
  | nil => exact Fr.pure
  | cons e es ih => obtain ⟨a, b⟩ := e; unfold sumBounds; fr_auto
macro_rules | `(tactic| fr_step) => `(tactic| with_reducible exact fr_sumBounds)
theorem fr_addClauseT {cc : CC} {b : Bool} {c : List Int} : Fr (addClauseT cc b c) := by unfold addClauseT; fr_auto
macro_rules | `(tactic| fr_step) => `(tactic| with_reducible exact fr_addClauseT)
theorem fr_pushReason {cc : CC} {r : List Int} {l : Int} : Fr (pushReason cc r l) := by unfold pushReason; fr_auto
macro_rules | `(tactic| fr_step) => `(tactic| with_reducible exact fr_pushReason)
theorem fr_refineLower {cc : CC} {v : Nat} {a b c d e : Int} : Fr (refineLower cc v a b c d e) := by unfold refineLower; fr_auto
macro_rules | `(tactic| fr_step) => `(tactic| with_reducible exact fr_refineLower)
theorem fr_introduceLower {cc : CC} {v : Nat} {a b : Int} {p : Bool × Int × Int × Int} : Fr (introduceLower cc v a b p) := by
  unfold introduceLower; fr_auto
macro_rules | `(tactic| fr_step) => `(tactic| with_reducible exact fr_introduceLower)
theorem fr_refineUpper {cc : CC} {v : Nat} {a b c d e : Int} : Fr (refineUpper cc v a b c d e) := by unfold refineUpper; fr_auto
macro_rules | `(tactic| fr_step) => `(tactic| with_reducible exact fr_refineUpper)
theorem fr_introduceUpper {cc : CC} {v : Nat} {a b : Int} {p : Bool × Int × Int × Int} : Fr (introduceUpper cc v a b p) := by
  unfold introduceUpper; fr_auto
macro_rules | `(tactic| fr_step) => `(tactic| with_reducible exact fr_introduceUpper)
theorem fr_reasonLower {cc : CC} {v : Nat} {a b : Int} : Fr (reasonLower cc v a b) := by unfold reasonLower; fr_auto
macro_rules | `(tactic| fr_step) => `(tactic| with_reducible exact fr_reasonLower)
theorem fr_reasonUpper {cc : CC} {v : Nat} {a b : Int} : Fr (reasonUpper cc v a b) := by unfold reasonUpper; fr_auto
macro_rules | `(tactic| fr_step) => `(tactic| with_reducible exact fr_reasonUpper)
theorem fr_calculateReason {cc : CC} {v : Nat} {a b : Int} : Fr (calculateReason cc v a b) := by unfold calculateReason; fr_auto
macro_rules | `(tactic| fr_step) => `(tactic| with_reducible exact fr_calculateReason)
theorem fr_sumReason {cc : CC} {s : Option Nat} {es : List (Int × Nat)} : ∀ {a : Int} {r : List Int}, Fr (sumReason cc s es a r) := by
  induction es with
  | nil => intro a r; exact Fr.pure
  | cons e es ih => intro a r; obtain ⟨x, y⟩ := e; unfold sumReason; fr_auto <;> exact ih
macro_rules | `(tactic| fr_step) => `(tactic| with_reducible exact fr_sumReason)
theorem fr_hasOrder {cc : CC} {v : Nat} {a : Int} {b : Bool} : Fr (hasOrder cc v a b) := by unfold hasOrder; fr_auto
macro_rules | `(tactic| fr_step) => `(tactic| with_reducible exact fr_hasOrder)
theorem fr_needReason {cc : CC} {a : Option Int} : Fr (needReason cc a) := by cases a <;> unfold needReason <;> fr_auto
macro_rules | `(tactic| fr_step) => `(tactic| with_reducible exact fr_needReason)
theorem fr_sumDerive {cc : CC} {t : Bool} {c : Int} {es : List (Int × Nat)} {v : Nat} {a b : Int} {n : Bool} :
    Fr (sumDerive cc t c es v a b n) := by unfold sumDerive; fr_auto
macro_rules | `(tactic| fr_step) => `(tactic| with_reducible exact fr_sumDerive)
theorem fr_sumConsequence {cc : CC} {t : Bool} {c : Int} {es : List (Int × Nat)} {v : Nat} {a b : Int} {n : Bool} :
    Fr (sumConsequence cc t c es v a b n) := by unfold sumConsequence; fr_auto
macro_rules | `(tactic| fr_step) => `(tactic| with_reducible exact fr_sumConsequence)
theorem fr_sumStep {cc : CC} {t : Bool} {c : Int} {es : List (Int × Nat)} {v : Nat} {a b : Int} :
    Fr (sumStep cc t c es a b v) := by unfold sumStep; fr_auto
macro_rules | `(tactic| fr_step) => `(tactic| with_reducible exact fr_sumStep)
theorem fr_sumLoop {cc : CC} {t : Bool} {c : Int} {es : List (Int × Nat)} {a : Int} {es' : List (Int × Nat)} :
    Fr (sumLoop cc t c es a es') := by
  induction es' with
  | nil => exact Fr.pure
  | cons e es' ih => obtain ⟨x, y⟩ := e; unfold sumLoop; fr_auto
macro_rules | `(tactic| fr_step) => `(tactic| with_reducible exact fr_sumLoop)
theorem fr_sumCheckState {c : CState} {es : List (Int × Nat)} : Fr (sumCheckState c es) := by unfold sumCheckState; fr_auto
macro_rules | `(tactic| fr_step) => `(tactic| with_reducible exact fr_sumCheckState)
theorem fr_distinctUpdate {es : List (List (Int × Nat) × Int)} {is : List Nat} : ∀ {c : CState}, Fr (distinctUpdate es is c) := by
  induction is with
  | nil => intro c; exact Fr.pure
  | cons i is ih => intro c; unfold distinctUpdate; fr_auto; exact ih
macro_rules | `(tactic| fr_step) => `(tactic| with_reducible exact fr_distinctUpdate)
theorem fr_distinctReason {cc : CC} {es : List (Int × Nat)} : ∀ {r : List Int}, Fr (distinctReason cc es r) := by
  induction es with
  | nil => intro c; exact Fr.pure
  | cons i is ih => intro c; obtain ⟨x, y⟩ := i; unfold distinctReason; fr_auto
macro_rules | `(tactic| fr_step) => `(tactic| with_reducible exact fr_distinctReason)
theorem fr_distinctStep {cc : CC} {u f : Bool} {v : Nat} {r : List Int} : Fr (distinctStep cc u f v r) := by
  unfold distinctStep; fr_auto
macro_rules | `(tactic| fr_step) => `(tactic| with_reducible exact fr_distinctStep)
theorem fr_distinctConsequence {cc : CC} {s : Int} {f : Bool} {es : List (Int × Nat)} : ∀ {r : List Int}, Fr (distinctConsequence cc s f es r) := by
  induction es with
  | nil => intro c; exact Fr.pure
  | cons i is ih => intro c; obtain ⟨x, y⟩ := i; unfold distinctConsequence; fr_auto; exact ih
macro_rules | `(tactic| fr_step) => `(tactic| with_reducible exact fr_distinctConsequence)
theorem fr_distinctPair {cc : CC} {c s : Int} {es : List (List (Int × Nat) × Int)} {i j : Nat} : Fr (distinctPair cc c es s i j) := by
  unfold distinctPair; fr_auto
macro_rules | `(tactic| fr_step) => `(tactic| with_reducible exact fr_distinctPair)
theorem fr_distinctPairs {cc : CC} {c s : Int} {es : List (List (Int × Nat) × Int)} {i : Nat} {js : List Nat} :
    Fr (distinctPairs cc c es s i js) := by
  induction js with
  | nil => exact Fr.pure
  | cons j js ih => unfold distinctPairs; fr_auto
macro_rules | `(tactic| fr_step) => `(tactic| with_reducible exact fr_distinctPairs)
theorem fr_distinctAssigned {cc : CC} {k : CState} {c v : Int} {es : List (List (Int × Nat) × Int)} {i : Nat} :
    Fr (distinctAssigned cc k c es v i) := by unfold distinctAssigned; fr_auto
macro_rules | `(tactic| fr_step) => `(tactic| with_reducible exact fr_distinctAssigned)
theorem fr_distinctTodo {cc : CC} {k : CState} {c s : Int} {es : List (List (Int × Nat) × Int)} {is : List Nat} :
    Fr (distinctTodo cc k c es s is) := by
  induction is with
  | nil => exact Fr.pure
  | cons j js ih => unfold distinctTodo; fr_auto
macro_rules | `(tactic| fr_step) => `(tactic| with_reducible exact fr_distinctTodo)
theorem fr_productReason {cc : CC} {x y : Nat} : Fr (productReason cc x y) := by unfold productReason; fr_auto
macro_rules | `(tactic| fr_step) => `(tactic| with_reducible exact fr_productReason)
theorem fr_linearReason {cc : CC} {x : Int} {y : Nat} : Fr (linearReason cc x y) := by unfold linearReason; fr_auto
macro_rules | `(tactic| fr_step) => `(tactic| with_reducible exact fr_linearReason)
theorem fr_linearBound {x : Int} {y : Nat} : Fr (linearBound x y) := by unfold linearBound; fr_auto
macro_rules | `(tactic| fr_step) => `(tactic| with_reducible exact fr_linearBound)
theorem fr_nonlinearZ {cc : CC} {x y z : Nat} {a b c : Int} : Fr (nonlinearZ cc x y a z b c) := by unfold nonlinearZ; fr_auto
macro_rules | `(tactic| fr_step) => `(tactic| with_reducible exact fr_nonlinearZ)
theorem fr_disjointBound {cc : CC} {t : Bool} {r : List Int} {i : DInterval} {b : Int} : Fr (disjointBound cc t r i b) := by
  unfold disjointBound; fr_auto
macro_rules | `(tactic| fr_step) => `(tactic| with_reducible exact fr_disjointBound)
theorem fr_disjointReasons {cc : CC} {t : Bool} {a : Int} {is : List DInterval} : ∀ {r : List Int}, Fr (disjointReasons cc t a is r) := by
  induction is with
  | nil => intro r; exact Fr.pure
  | cons i is ih => intro r; unfold disjointReasons; fr_auto <;> exact ih
macro_rules | `(tactic| fr_step) => `(tactic| with_reducible exact fr_disjointReasons)
theorem fr_disjointReason {cc : CC} {t : Bool} {c a : Int} {is : List DInterval} : Fr (disjointReason cc t c a is) := by
  unfold disjointReason; fr_auto
macro_rules | `(tactic| fr_step) => `(tactic| with_reducible exact fr_disjointReason)
theorem fr_hallLoop {cc : CC} {t : Bool} {a b : Int} {r : List Int} {is : List DInterval} : Fr (hallLoop cc t a b r is) := by
  induction is with
  | nil => exact Fr.pure
  | cons i is ih => unfold hallLoop; fr_auto
macro_rules | `(tactic| fr_step) => `(tactic| with_reducible exact fr_hallLoop)
theorem fr_disjointHall {cc : CC} {t : Bool} {c a b : Int} {is js : List DInterval} : Fr (disjointHall cc t c a b is js) := by
  unfold disjointHall; fr_auto
macro_rules | `(tactic| fr_step) => `(tactic| with_reducible exact fr_disjointHall)
theorem fr_disjointInsert {cc : CC} {t : Bool} {c : Int} {is js : List DInterval} {i : DInterval} :
    Fr (disjointInsert cc t c is i js) := by unfold disjointInsert; fr_auto
macro_rules | `(tactic| fr_step) => `(tactic| with_reducible exact fr_disjointInsert)
theorem fr_disjointGroup {cc : CC} {t : Bool} {c : Int} {n : Nat} : ∀ {is js : List DInterval}, Fr (disjointGroup cc t c n is js) := by
  induction n with
  | zero => intro is js; exact Fr.pure
  | succ n ih =>
    intro is js
    cases js with
    | nil => exact Fr.pure
    | cons j js => unfold disjointGroup; fr_auto; exact ih
macro_rules | `(tactic| fr_step) => `(tactic| with_reducible exact fr_disjointGroup)
theorem fr_disjointRunGroups {cc : CC} {t : Bool} {c : Int} {f : Bool} {gs : List (List DInterval)} :
    ∀ {ds : List DInterval}, Fr (disjointRunGroups cc t c f gs ds) := by
  induction gs with
  | nil => intro ds; exact Fr.pure
  | cons g gs ih => intro ds; unfold disjointRunGroups; fr_auto <;> exact ih
macro_rules | `(tactic| fr_step) => `(tactic| with_reducible exact fr_disjointRunGroups)
theorem fr_disjointRun {cc : CC} {t : Bool} {c : Int} {f : Bool} {is : List DInterval} : Fr (disjointRun cc t c f is) := by
  unfold disjointRun; fr_auto
macro_rules | `(tactic| fr_step) => `(tactic| with_reducible exact fr_disjointRun)
theorem fr_disjointLoad {is : List DInterval} : Fr (disjointLoad is) := by
  induction is with
  | nil => exact Fr.pure
  | cons i is ih => unfold disjointLoad; fr_auto
macro_rules | `(tactic| fr_step) => `(tactic| with_reducible exact fr_disjointLoad)
theorem fr_addSimple {cc : CC} {lit co rhs : Int} {var : Nat} {s : Bool} : Fr (addSimple cc lit co var rhs s) := by
  unfold addSimple; fr_auto
macro_rules | `(tactic| fr_step) => `(tactic| with_reducible exact fr_addSimple)

end Clingcon
