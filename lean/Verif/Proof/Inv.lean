import Verif.Proof.Frame
import Verif.Model.Run
import Verif.Proof.NewOps

/-! Preservation of a property of states by all functions of the solver, provided that the functions changing
tables and bounds of variables preserve it. -/
set_option linter.unusedSimpArgs false
set_option linter.unusedVariables false
set_option linter.unnecessarySeqFocus false
namespace Clingcon
open Spec VarState

variable {α γ : Type} {W W' : World} {P : World → Prop}

/-- The property is preserved. -/
structure Kw (P : World → Prop) (x : SM α) : Prop where
  kw : ∀ W a W', x W = .ok (a, W') → P W → P W'

/-- What few functions change. -/
def _root_.Clingcon.Book.fixed (b : Book) : List Lvl × Nat := (b.levels, b.trailOffset)

/-- The functions on which propagation of constraints is built preserve the property. -/
structure Prim0 (P : World → Prop) : Prop where
  book : ∀ W b, b.fixed = W.book.fixed → P W → P { W with book := b }
  event : ∀ W e, (∀ l v k, e ≠ .order l v k) ∧ (∀ a, e ≠ .lit a) → P W → P { W with log := e :: W.log }
  literal : ∀ cc v x, Kw P (getLiteral cc v x)
  updLiteral : ∀ cc v x t, Kw P (updateLiteral cc v x t)

/-- The functions on which all others but backtracking are built preserve the property. -/
structure PrimN (P : World → Prop) : Prop extends Prim0 P where
  levels : ∀ W ls, P W → P { W with book.levels := ls }
  clear : ∀ W, P W → P { W with factmap := [] }
  mkFact : ∀ a b, b.natAbs = 1 → Kw P (makeFact a b)
  drFact : ∀ f v x, Kw P (dropFact f v x)
  step : ∀ m n o, Kw P (updateStep m n o)
  updLower : ∀ {l v x W u W'}, updateLower l v x W = .ok (u, W') → (∀ vs, W.vars[v]? = some vs → vs.lower < x + 1 ∧ x + 1 ≤ vs.upper) → P W → P W'
  updUpper : ∀ {l v x W u W'}, updateUpper l v x W = .ok (u, W') → (∀ vs, W.vars[v]? = some vs → x < vs.upper ∧ vs.lower ≤ x) → P W → P W'

/-- The functions on which the others are built preserve the property. -/
structure Prim (P : World → Prop) : Prop extends PrimN P where
  popLower : ∀ v, Kw P (undoLowerVar v)
  popUpper : ∀ v, Kw P (undoUpperVar v)

/-- Integrating a literal preserves the property. -/
structure PrimD (P : World → Prop) : Prop extends Prim0 P where
  levels : ∀ W ls, P W → P { W with book.levels := ls }
  domain : ∀ cc l, Kw P (updateDomain cc l)
  step : ∀ m n o, Kw P (updateStep m n o)

/-- Backtracking preserves the property. -/
structure PrimP (P : World → Prop) : Prop extends Prim0 P where
  levels : ∀ W ls, P W → P { W with book.levels := ls }
  popLower : ∀ v, Kw P (undoLowerVar v)
  popUpper : ∀ v, Kw P (undoUpperVar v)

/-- Both do. -/
structure PrimU (P : World → Prop) : Prop extends PrimD P, PrimP P

/-- The hypothesis about the basic functions. -/
macro "prim_asm" : tactic => `(tactic| first
  | assumption
  | (refine PrimN.toPrim0 ?_; assumption)
  | (refine PrimD.toPrim0 ?_; assumption)
  | (refine PrimP.toPrim0 ?_; assumption)
  | (refine PrimU.toPrimD ?_; assumption)
  | (refine PrimU.toPrimP ?_; assumption)
  | (refine PrimN.toPrim0 (Prim.toPrimN ?_); assumption)
  | (refine PrimD.toPrim0 (PrimU.toPrimD ?_); assumption))

theorem Kw.bind {x : SM α} {f : α → SM γ} (hx : Kw P x) (hf : ∀ a, Kw P (f a)) : Kw P (x >>= f) := by
  refine ⟨fun W b W' h hp => ?_⟩
  obtain ⟨a, W1, h1, h2⟩ := SM.bind_ok h
  exact (hf a).kw _ _ _ h2 (hx.kw _ _ _ h1 hp)

theorem Kw.pure {a : α} : Kw P (Pure.pure a : SM α) := ⟨fun W b W' h hp => by obtain ⟨-, rfl⟩ := pure_iff.mp h; exact hp⟩
theorem Kw.ub : Kw P (SM.ub : SM α) := ⟨fun W b W' h => by cases h⟩
theorem Kw.throw {e : Err} : Kw P (throw e : SM α) := ⟨fun W b W' h => by cases h⟩
theorem Kw.whenS {b : Bool} {x : SM Unit} (h : Kw P x) : Kw P (whenS b x) := by
  unfold Clingcon.whenS; split
  · exact h
  · exact Kw.pure
theorem Kw.assertS {b : Bool} : Kw P (assertS b) := by
  unfold Clingcon.assertS; split
  · exact Kw.pure
  · exact Kw.ub
theorem Kw.discard {x : SM α} (h : Kw P x) : Kw P (Functor.discard x : SM Unit) :=
  Kw.bind (f := fun _ => Pure.pure ()) h (fun _ => Kw.pure)
/-- Functions that only read. -/
theorem Kw.same {x : SM α} (h : ∀ W a W', x W = .ok (a, W') → W' = W) : Kw P x := ⟨fun W a W' hx hp => by rw [h _ _ _ hx]; exact hp⟩
/-! Functions on the bookkeeping that do not change the levels. -/
theorem lv_markInactive {b : Book} {l n : Nat} : (b.markInactive l n).fixed = b.fixed := by
  unfold Book.markInactive
  split
  · rfl
  · split <;> rfl
theorem lv_markTodo {b : Book} {n : Nat} : (b.markTodo n).fixed = b.fixed := by
  unfold Book.markTodo
  split
  · rfl
  · split
    · rfl
    · split <;> rfl
theorem lv_marks {ns : List Nat} : ∀ {b : Book}, (ns.foldl Book.markTodo b).fixed = b.fixed := by
  induction ns with
  | nil => intro b; rfl
  | cons n ns ih => intro b; exact ih.trans lv_markTodo
theorem lv_removeMarks {b : Book} {n : Nat} : (b.removeMarks n).fixed = b.fixed := by
  unfold Book.removeMarks
  split <;> rfl
theorem lv_updateMinimize {b : Book} {n l : Nat} {x : Int} : (b.updateMinimize n l x).fixed = b.fixed := by
  unfold Book.updateMinimize
  cases hq : b.minimizeBound with
  | none => dsimp only; rw [if_pos rfl]; exact lv_markTodo
  | some mb =>
    dsimp only
    by_cases h : x < mb
    · rw [if_pos (by simpa using h)]; exact lv_markTodo
    · rw [if_neg (by simpa using h)]
      split
      · exact lv_markTodo
      · rfl
theorem resBind_ok {x : Res α} {f : α → Res γ} {r : γ} (h : (x >>= f) = .ok r) : ∃ a, x = .ok a ∧ f a = .ok r := by
  cases x with
  | error e => cases h
  | ok a => exact ⟨a, rfl, h⟩
theorem lv_updateWatches {l v : Nat} {d : Int} : ∀ {ws : List (Int × Nat)} {b : Book} {p : List (Int × Nat) × Book},
    Book.updateWatches l v d ws b = .ok p → p.2.fixed = b.fixed
  | [], b, p, h => by cases h; rfl
  | (i, n) :: ws, b, p, h => by
    unfold Book.updateWatches at h
    split at h
    · cases h
    · split at h
      · exact (lv_updateWatches (ws := ws) h :)
      · obtain ⟨r, h1, h⟩ := resBind_ok h
        obtain ⟨q, h2, h⟩ := resBind_ok h
        cases h
        have := lv_updateWatches (ws := ws) h2
        rw [this]
        split
        · exact lv_markTodo
        · rfl
theorem lv_updateConstraints {l v : Nat} {d : Int} {b b' : Book} (h : Book.updateConstraints l v d b = .ok b') : b'.fixed = b.fixed := by
  unfold Book.updateConstraints at h
  split at h
  · cases h
  · obtain ⟨p, h1, h⟩ := resBind_ok h
    cases h
    exact lv_updateWatches h1
theorem lv_updateUppers {l : Nat} : ∀ {vs : List Nat} {b b' : Book}, Book.updateUppers l vs b = .ok b' → b'.fixed = b.fixed
  | [], b, b', h => by cases h; rfl
  | v :: vs, b, b', h => by
    obtain ⟨b1, h1, h⟩ := resBind_ok h
    have := lv_updateUppers (vs := vs) h
    exact this.trans (lv_updateConstraints h1 :)
theorem lv_updateLowers {l : Nat} : ∀ {vs : List Nat} {b b' : Book}, Book.updateLowers l vs b = .ok b' → b'.fixed = b.fixed
  | [], b, b', h => by cases h; rfl
  | v :: vs, b, b', h => by
    obtain ⟨b1, h1, h⟩ := resBind_ok h
    have := lv_updateLowers (vs := vs) h
    exact this.trans (lv_updateConstraints h1 :)

/-- Functions that only change the bookkeeping except for the levels. -/
theorem Kw.modify (hP : Prim0 P) {f : World → World} (h : ∀ W, ∃ b, f W = { W with book := b } ∧ b.fixed = W.book.fixed) : Kw P (_root_.modify f : SM Unit) :=
  ⟨fun W a W' hx hp => by rw [modify_iff.mp hx]; obtain ⟨b, e, hb⟩ := h W; rw [e]; exact hP.book _ _ hb hp⟩
/-- Functions that only change the levels. -/
theorem Kw.modifyL (hP : ∀ W ls, P W → P { W with book.levels := ls }) {f : World → World} (h : ∀ W, ∃ ls, f W = { W with book.levels := ls }) : Kw P (_root_.modify f : SM Unit) :=
  ⟨fun W a W' hx hp => by rw [modify_iff.mp hx]; obtain ⟨b, e⟩ := h W; rw [e]; exact hP _ _ hp⟩
theorem Kw.liftRes {r : Res α} : Kw P (liftRes r) := Kw.same (fun _ _ _ h => (liftRes_iff.mp h).2)
theorem Kw.getVar {v : Nat} : Kw P (getVar v) := Kw.same (fun _ _ _ h => (getVar_iff.mp h).2)
theorem Kw.getCS {v : Nat} : Kw P (getCS v) := Kw.same (fun _ _ _ h => (getCS_iff.mp h).2)
theorem Kw.curLevel : Kw P (curLevel ) := Kw.same (fun _ _ _ h => (curLevel_iff.mp h).2)
theorem Kw.get : Kw P (get : SM World) := Kw.same (fun _ _ _ h => (get_iff.mp h).2)
theorem Kw.qTrue {cc : CC} {l : Int} : Kw P (qTrue cc l) := Kw.same (fun _ _ _ h => (qTrue_iff.mp h).2)
theorem Kw.qFalse {cc : CC} {l : Int} : Kw P (qFalse cc l) := Kw.same (fun _ _ _ h => (qFalse_iff.mp h).2)
theorem Kw.qFixed {cc : CC} {l : Int} : Kw P (qFixed cc l) := Kw.same (fun _ _ _ h => (qFixed_iff.mp h).2)
theorem Kw.qValue {cc : CC} {l : Int} : Kw P (qValue cc l) := Kw.same (fun _ _ _ h => (qValue_iff.mp h).2)
theorem Kw.qLitLevel {cc : CC} {l : Int} : Kw P (qLitLevel cc l) := Kw.same (fun _ _ _ h => (qLitLevel_iff.mp h).2)
theorem Kw.qLevel {cc : CC} : Kw P (qLevel cc) := Kw.same (fun _ _ _ h => (qLevel_iff.mp h).2)
theorem Kw.litmapAt {l : Int} : Kw P (litmapAt l) := Kw.same (fun _ _ _ h => (litmapAt_iff.mp h).2)
theorem Kw.addWatch (hP : Prim0 P) {l : Int} : Kw P (addWatch l) := ⟨fun W _ _ h hp => by rw [addWatch_iff.mp h]; exact hP.event _ _ (by simp) hp⟩
theorem Kw.addClause (hP : Prim0 P) {cc : CC} {c : List Int} : Kw P (addClause cc c) := ⟨fun W _ _ h hp => by rw [(addClause_iff.mp h).2]; exact hP.event _ _ (by simp) hp⟩
theorem Kw.addVolatile (hP : Prim0 P) {cc : CC} {c : List Int} : Kw P (addVolatile cc c) := ⟨fun W _ _ h hp => by rw [(addVolatile_iff.mp h).2]; exact hP.event _ _ (by simp) hp⟩
theorem Kw.ccPropagate (hP : Prim0 P) {cc : CC} : Kw P (ccPropagate cc) := ⟨fun W _ _ h hp => by rw [(ccPropagate_iff.mp h).2]; exact hP.event _ _ (by simp) hp⟩
theorem Kw.setCS (hP : Prim0 P) {n : Nat} {c : CState} : Kw P (setCS n c) := Kw.modify hP (fun W => ⟨_, rfl, rfl⟩)

/-- One step of proving that the property is preserved; extended below for each function. -/
syntax "kw_step" : tactic
macro_rules | `(tactic| kw_step) => `(tactic| dsimp only)
macro_rules | `(tactic| kw_step) => `(tactic| intro _)
macro_rules | `(tactic| kw_step) => `(tactic| split)
macro_rules | `(tactic| kw_step) => `(tactic| (refine Kw.modify ?_ (fun W => ⟨_, rfl, by first | rfl | exact lv_markInactive | exact lv_marks | exact lv_markTodo | exact lv_removeMarks | exact lv_updateMinimize⟩); prim_asm))
macro_rules | `(tactic| kw_step) => `(tactic| with_reducible apply Kw.bind)
macro_rules | `(tactic| kw_step) => `(tactic| with_reducible apply Kw.whenS)
macro_rules | `(tactic| kw_step) => `(tactic| with_reducible apply Kw.discard)
macro_rules | `(tactic| kw_step) => `(tactic| with_reducible exact Kw.throw)
macro_rules | `(tactic| kw_step) => `(tactic| with_reducible exact Kw.pure)
macro_rules | `(tactic| kw_step) => `(tactic| with_reducible exact Kw.ub)
macro_rules | `(tactic| kw_step) => `(tactic| with_reducible exact Kw.assertS)
macro_rules | `(tactic| kw_step) => `(tactic| with_reducible exact Kw.liftRes)
macro_rules | `(tactic| kw_step) => `(tactic| with_reducible exact Kw.getVar)
macro_rules | `(tactic| kw_step) => `(tactic| with_reducible exact Kw.getCS)
macro_rules | `(tactic| kw_step) => `(tactic| with_reducible exact Kw.curLevel)
macro_rules | `(tactic| kw_step) => `(tactic| with_reducible exact Kw.get)
macro_rules | `(tactic| kw_step) => `(tactic| with_reducible exact Kw.qTrue)
macro_rules | `(tactic| kw_step) => `(tactic| with_reducible exact Kw.qFalse)
macro_rules | `(tactic| kw_step) => `(tactic| with_reducible exact Kw.qFixed)
macro_rules | `(tactic| kw_step) => `(tactic| with_reducible exact Kw.qValue)
macro_rules | `(tactic| kw_step) => `(tactic| with_reducible exact Kw.qLitLevel)
macro_rules | `(tactic| kw_step) => `(tactic| with_reducible exact Kw.qLevel)
macro_rules | `(tactic| kw_step) => `(tactic| with_reducible exact Kw.litmapAt)
macro_rules | `(tactic| kw_step) => `(tactic| (with_reducible refine Kw.addWatch ?_; prim_asm))
macro_rules | `(tactic| kw_step) => `(tactic| (with_reducible refine Kw.addClause ?_; prim_asm))
macro_rules | `(tactic| kw_step) => `(tactic| (with_reducible refine Kw.addVolatile ?_; prim_asm))
macro_rules | `(tactic| kw_step) => `(tactic| (with_reducible refine Kw.ccPropagate ?_; prim_asm))
macro_rules | `(tactic| kw_step) => `(tactic| (with_reducible refine Kw.setCS ?_; prim_asm))
macro_rules | `(tactic| kw_step) => `(tactic| (with_reducible refine Prim0.literal ?_ _ _ _; prim_asm))
macro_rules | `(tactic| kw_step) => `(tactic| (with_reducible refine Prim0.updLiteral ?_ _ _ _ _; prim_asm))
macro_rules | `(tactic| kw_step) => `(tactic| (with_reducible refine PrimN.drFact ?_ _ _ _; prim_asm))
macro_rules | `(tactic| kw_step) => `(tactic| (with_reducible refine PrimD.step ?_ _ _ _; prim_asm))
macro_rules | `(tactic| kw_step) => `(tactic| (with_reducible refine PrimP.popLower ?_ _; prim_asm))
macro_rules | `(tactic| kw_step) => `(tactic| (with_reducible refine PrimP.popUpper ?_ _; prim_asm))
macro_rules | `(tactic| kw_step) => `(tactic| (with_reducible refine PrimN.mkFact ?_ _ _ rfl; prim_asm))
macro_rules | `(tactic| kw_step) => `(tactic| assumption)
macro "kw_auto" : tactic => `(tactic| repeat' kw_step)

theorem kw_propagateVariables (hP : Prim0 P) {cc : CC} {s : Int} {ls : List Int} : ∀ {r : Int}, Kw P (propagateVariables cc s r ls) := by
  induction ls with
  | nil => intro r; exact Kw.pure
  | cons l ls ih => intro r; unfold propagateVariables; kw_auto <;> exact ih
macro_rules | `(tactic| kw_step) => `(tactic| (with_reducible refine kw_propagateVariables ?_; prim_asm))
theorem kw_simplifyLit (hP : PrimN P) {cc : CC} {lit : Int} : Kw P (simplifyLit cc lit) := by unfold simplifyLit; kw_auto
macro_rules | `(tactic| kw_step) => `(tactic| (with_reducible refine kw_simplifyLit ?_; prim_asm))
theorem kw_prevTrue (hP : Prim0 P) {cc : CC} {var : Nat} {p : Option Int} : Kw P (prevTrue cc var p) := by cases p <;> unfold prevTrue <;> kw_auto
macro_rules | `(tactic| kw_step) => `(tactic| (with_reducible refine kw_prevTrue ?_; prim_asm))
theorem kw_succTrue (hP : Prim0 P) {cc : CC} {var : Nat} {p : Option Int} : Kw P (succTrue cc var p) := by cases p <;> unfold succTrue <;> kw_auto
macro_rules | `(tactic| kw_step) => `(tactic| (with_reducible refine kw_succTrue ?_; prim_asm))
theorem kw_canReuse (hP : Prim0 P) {var : Nat} {value : Int} {b : Bool} : Kw P (canReuse var value b) := by unfold canReuse; kw_auto
macro_rules | `(tactic| kw_step) => `(tactic| (with_reducible refine kw_canReuse ?_; prim_asm))
theorem kw_addDomLower (hP : Prim0 P) {cc : CC} {lit : Int} {var : Nat} {dom : List (Int × Int)} : ∀ {p : Option Int},
    Kw P (addDomLower cc lit var p dom) := by
  induction dom with
  | nil => intro p; exact Kw.pure
  | cons d dom ih => intro p; obtain ⟨a, b⟩ := d; unfold addDomLower; kw_auto <;> exact ih
macro_rules | `(tactic| kw_step) => `(tactic| (with_reducible refine kw_addDomLower ?_; prim_asm))
theorem kw_addDomUpper (hP : Prim0 P) {cc : CC} {lit : Int} {var : Nat} {dom : List (Int × Int)} : ∀ {p : Option Int},
    Kw P (addDomUpper cc lit var p dom) := by
  induction dom with
  | nil => intro p; exact Kw.pure
  | cons d dom ih => intro p; obtain ⟨a, b⟩ := d; unfold addDomUpper; kw_auto <;> exact ih
macro_rules | `(tactic| kw_step) => `(tactic| (with_reducible refine kw_addDomUpper ?_; prim_asm))
theorem kw_addDom (hP : Prim0 P) {cc : CC} {lit : Int} {var : Nat} {dom : List (Int × Int)} : Kw P (addDom cc lit var dom) := by
  unfold addDom; kw_auto
macro_rules | `(tactic| kw_step) => `(tactic| (with_reducible refine kw_addDom ?_; prim_asm))
theorem kw_sumBounds (hP : Prim0 P) {es : List (Int × Nat)} : Kw P (sumBounds es) := by
  induction es with
  | nil => exact Kw.pure
  | cons e es ih => obtain ⟨a, b⟩ := e; unfold sumBounds; kw_auto
macro_rules | `(tactic| kw_step) => `(tactic| (with_reducible refine kw_sumBounds ?_; prim_asm))
theorem kw_addClauseT (hP : Prim0 P) {cc : CC} {b : Bool} {c : List Int} : Kw P (addClauseT cc b c) := by unfold addClauseT; kw_auto
macro_rules | `(tactic| kw_step) => `(tactic| (with_reducible refine kw_addClauseT ?_; prim_asm))
theorem kw_pushReason (hP : Prim0 P) {cc : CC} {r : List Int} {l : Int} : Kw P (pushReason cc r l) := by unfold pushReason; kw_auto
macro_rules | `(tactic| kw_step) => `(tactic| (with_reducible refine kw_pushReason ?_; prim_asm))
theorem kw_refineLower (hP : Prim0 P) {cc : CC} {v : Nat} {a b c d e : Int} : Kw P (refineLower cc v a b c d e) := by unfold refineLower; kw_auto
macro_rules | `(tactic| kw_step) => `(tactic| (with_reducible refine kw_refineLower ?_; prim_asm))
theorem kw_introduceLower (hP : Prim0 P) {cc : CC} {v : Nat} {a b : Int} {p : Bool × Int × Int × Int} : Kw P (introduceLower cc v a b p) := by
  unfold introduceLower; kw_auto
macro_rules | `(tactic| kw_step) => `(tactic| (with_reducible refine kw_introduceLower ?_; prim_asm))
theorem kw_refineUpper (hP : Prim0 P) {cc : CC} {v : Nat} {a b c d e : Int} : Kw P (refineUpper cc v a b c d e) := by unfold refineUpper; kw_auto
macro_rules | `(tactic| kw_step) => `(tactic| (with_reducible refine kw_refineUpper ?_; prim_asm))
theorem kw_introduceUpper (hP : Prim0 P) {cc : CC} {v : Nat} {a b : Int} {p : Bool × Int × Int × Int} : Kw P (introduceUpper cc v a b p) := by
  unfold introduceUpper; kw_auto
macro_rules | `(tactic| kw_step) => `(tactic| (with_reducible refine kw_introduceUpper ?_; prim_asm))
theorem kw_reasonLower (hP : Prim0 P) {cc : CC} {v : Nat} {a b : Int} : Kw P (reasonLower cc v a b) := by unfold reasonLower; kw_auto
macro_rules | `(tactic| kw_step) => `(tactic| (with_reducible refine kw_reasonLower ?_; prim_asm))
theorem kw_reasonUpper (hP : Prim0 P) {cc : CC} {v : Nat} {a b : Int} : Kw P (reasonUpper cc v a b) := by unfold reasonUpper; kw_auto
macro_rules | `(tactic| kw_step) => `(tactic| (with_reducible refine kw_reasonUpper ?_; prim_asm))
theorem kw_calculateReason (hP : Prim0 P) {cc : CC} {v : Nat} {a b : Int} : Kw P (calculateReason cc v a b) := by unfold calculateReason; kw_auto
macro_rules | `(tactic| kw_step) => `(tactic| (with_reducible refine kw_calculateReason ?_; prim_asm))
theorem kw_sumReason (hP : Prim0 P) {cc : CC} {s : Option Nat} {es : List (Int × Nat)} : ∀ {a : Int} {r : List Int}, Kw P (sumReason cc s es a r) := by
  induction es with
  | nil => intro a r; exact Kw.pure
  | cons e es ih => intro a r; obtain ⟨x, y⟩ := e; unfold sumReason; kw_auto <;> exact ih
macro_rules | `(tactic| kw_step) => `(tactic| (with_reducible refine kw_sumReason ?_; prim_asm))
theorem kw_hasOrder (hP : Prim0 P) {cc : CC} {v : Nat} {a : Int} {b : Bool} : Kw P (hasOrder cc v a b) := by unfold hasOrder; kw_auto
macro_rules | `(tactic| kw_step) => `(tactic| (with_reducible refine kw_hasOrder ?_; prim_asm))
theorem kw_needReason (hP : Prim0 P) {cc : CC} {a : Option Int} : Kw P (needReason cc a) := by cases a <;> unfold needReason <;> kw_auto
macro_rules | `(tactic| kw_step) => `(tactic| (with_reducible refine kw_needReason ?_; prim_asm))
theorem kw_sumDerive (hP : Prim0 P) {cc : CC} {t : Bool} {c : Int} {es : List (Int × Nat)} {v : Nat} {a b : Int} {n : Bool} :
    Kw P (sumDerive cc t c es v a b n) := by unfold sumDerive; kw_auto
macro_rules | `(tactic| kw_step) => `(tactic| (with_reducible refine kw_sumDerive ?_; prim_asm))
theorem kw_sumConsequence (hP : Prim0 P) {cc : CC} {t : Bool} {c : Int} {es : List (Int × Nat)} {v : Nat} {a b : Int} {n : Bool} :
    Kw P (sumConsequence cc t c es v a b n) := by unfold sumConsequence; kw_auto
macro_rules | `(tactic| kw_step) => `(tactic| (with_reducible refine kw_sumConsequence ?_; prim_asm))
theorem kw_sumStep (hP : Prim0 P) {cc : CC} {t : Bool} {c : Int} {es : List (Int × Nat)} {v : Nat} {a b : Int} :
    Kw P (sumStep cc t c es a b v) := by unfold sumStep; kw_auto
macro_rules | `(tactic| kw_step) => `(tactic| (with_reducible refine kw_sumStep ?_; prim_asm))
theorem kw_sumLoop (hP : Prim0 P) {cc : CC} {t : Bool} {c : Int} {es : List (Int × Nat)} {a : Int} {es' : List (Int × Nat)} :
    Kw P (sumLoop cc t c es a es') := by
  induction es' with
  | nil => exact Kw.pure
  | cons e es' ih => obtain ⟨x, y⟩ := e; unfold sumLoop; kw_auto
macro_rules | `(tactic| kw_step) => `(tactic| (with_reducible refine kw_sumLoop ?_; prim_asm))
theorem kw_sumCheckState (hP : Prim0 P) {c : CState} {es : List (Int × Nat)} : Kw P (sumCheckState c es) := by unfold sumCheckState; kw_auto
macro_rules | `(tactic| kw_step) => `(tactic| (with_reducible refine kw_sumCheckState ?_; prim_asm))
theorem kw_distinctUpdate (hP : Prim0 P) {es : List (List (Int × Nat) × Int)} {is : List Nat} : ∀ {c : CState}, Kw P (distinctUpdate es is c) := by
  induction is with
  | nil => intro c; exact Kw.pure
  | cons i is ih => intro c; unfold distinctUpdate; kw_auto; exact ih
macro_rules | `(tactic| kw_step) => `(tactic| (with_reducible refine kw_distinctUpdate ?_; prim_asm))
theorem kw_distinctReason (hP : Prim0 P) {cc : CC} {es : List (Int × Nat)} : ∀ {r : List Int}, Kw P (distinctReason cc es r) := by
  induction es with
  | nil => intro c; exact Kw.pure
  | cons i is ih => intro c; obtain ⟨x, y⟩ := i; unfold distinctReason; kw_auto
macro_rules | `(tactic| kw_step) => `(tactic| (with_reducible refine kw_distinctReason ?_; prim_asm))
theorem kw_distinctStep (hP : Prim0 P) {cc : CC} {u f : Bool} {v : Nat} {r : List Int} : Kw P (distinctStep cc u f v r) := by
  unfold distinctStep; kw_auto
macro_rules | `(tactic| kw_step) => `(tactic| (with_reducible refine kw_distinctStep ?_; prim_asm))
theorem kw_distinctConsequence (hP : Prim0 P) {cc : CC} {s : Int} {f : Bool} {es : List (Int × Nat)} : ∀ {r : List Int}, Kw P (distinctConsequence cc s f es r) := by
  induction es with
  | nil => intro c; exact Kw.pure
  | cons i is ih => intro c; obtain ⟨x, y⟩ := i; unfold distinctConsequence; kw_auto; exact ih
macro_rules | `(tactic| kw_step) => `(tactic| (with_reducible refine kw_distinctConsequence ?_; prim_asm))
theorem kw_distinctPair (hP : Prim0 P) {cc : CC} {c s : Int} {es : List (List (Int × Nat) × Int)} {i j : Nat} : Kw P (distinctPair cc c es s i j) := by
  unfold distinctPair; kw_auto
macro_rules | `(tactic| kw_step) => `(tactic| (with_reducible refine kw_distinctPair ?_; prim_asm))
theorem kw_distinctPairs (hP : Prim0 P) {cc : CC} {c s : Int} {es : List (List (Int × Nat) × Int)} {i : Nat} {js : List Nat} :
    Kw P (distinctPairs cc c es s i js) := by
  induction js with
  | nil => exact Kw.pure
  | cons j js ih => unfold distinctPairs; kw_auto
macro_rules | `(tactic| kw_step) => `(tactic| (with_reducible refine kw_distinctPairs ?_; prim_asm))
theorem kw_distinctAssigned (hP : Prim0 P) {cc : CC} {k : CState} {c v : Int} {es : List (List (Int × Nat) × Int)} {i : Nat} :
    Kw P (distinctAssigned cc k c es v i) := by unfold distinctAssigned; kw_auto
macro_rules | `(tactic| kw_step) => `(tactic| (with_reducible refine kw_distinctAssigned ?_; prim_asm))
theorem kw_distinctTodo (hP : Prim0 P) {cc : CC} {k : CState} {c s : Int} {es : List (List (Int × Nat) × Int)} {is : List Nat} :
    Kw P (distinctTodo cc k c es s is) := by
  induction is with
  | nil => exact Kw.pure
  | cons j js ih => unfold distinctTodo; kw_auto
macro_rules | `(tactic| kw_step) => `(tactic| (with_reducible refine kw_distinctTodo ?_; prim_asm))
theorem kw_productReason (hP : Prim0 P) {cc : CC} {x y : Nat} : Kw P (productReason cc x y) := by unfold productReason; kw_auto
macro_rules | `(tactic| kw_step) => `(tactic| (with_reducible refine kw_productReason ?_; prim_asm))
theorem kw_linearReason (hP : Prim0 P) {cc : CC} {x : Int} {y : Nat} : Kw P (linearReason cc x y) := by unfold linearReason; kw_auto
macro_rules | `(tactic| kw_step) => `(tactic| (with_reducible refine kw_linearReason ?_; prim_asm))
theorem kw_linearBound (hP : Prim0 P) {x : Int} {y : Nat} : Kw P (linearBound x y) := by unfold linearBound; kw_auto
macro_rules | `(tactic| kw_step) => `(tactic| (with_reducible refine kw_linearBound ?_; prim_asm))
theorem kw_nonlinearZ (hP : Prim0 P) {cc : CC} {x y z : Nat} {a b c : Int} : Kw P (nonlinearZ cc x y a z b c) := by unfold nonlinearZ; kw_auto
macro_rules | `(tactic| kw_step) => `(tactic| (with_reducible refine kw_nonlinearZ ?_; prim_asm))
theorem kw_disjointBound (hP : Prim0 P) {cc : CC} {t : Bool} {r : List Int} {i : DInterval} {b : Int} : Kw P (disjointBound cc t r i b) := by
  unfold disjointBound; kw_auto
macro_rules | `(tactic| kw_step) => `(tactic| (with_reducible refine kw_disjointBound ?_; prim_asm))
theorem kw_disjointReasons (hP : Prim0 P) {cc : CC} {t : Bool} {a : Int} {is : List DInterval} : ∀ {r : List Int}, Kw P (disjointReasons cc t a is r) := by
  induction is with
  | nil => intro r; exact Kw.pure
  | cons i is ih => intro r; unfold disjointReasons; kw_auto <;> exact ih
macro_rules | `(tactic| kw_step) => `(tactic| (with_reducible refine kw_disjointReasons ?_; prim_asm))
theorem kw_disjointReason (hP : Prim0 P) {cc : CC} {t : Bool} {c a : Int} {is : List DInterval} : Kw P (disjointReason cc t c a is) := by
  unfold disjointReason; kw_auto
macro_rules | `(tactic| kw_step) => `(tactic| (with_reducible refine kw_disjointReason ?_; prim_asm))
theorem kw_hallLoop (hP : Prim0 P) {cc : CC} {t : Bool} {a b : Int} {r : List Int} {is : List DInterval} : Kw P (hallLoop cc t a b r is) := by
  induction is with
  | nil => exact Kw.pure
  | cons i is ih => unfold hallLoop; kw_auto
macro_rules | `(tactic| kw_step) => `(tactic| (with_reducible refine kw_hallLoop ?_; prim_asm))
theorem kw_disjointHall (hP : Prim0 P) {cc : CC} {t : Bool} {c a b : Int} {is js : List DInterval} : Kw P (disjointHall cc t c a b is js) := by
  unfold disjointHall; kw_auto
macro_rules | `(tactic| kw_step) => `(tactic| (with_reducible refine kw_disjointHall ?_; prim_asm))
theorem kw_disjointInsert (hP : Prim0 P) {cc : CC} {t : Bool} {c : Int} {is js : List DInterval} {i : DInterval} :
    Kw P (disjointInsert cc t c is i js) := by unfold disjointInsert; kw_auto
macro_rules | `(tactic| kw_step) => `(tactic| (with_reducible refine kw_disjointInsert ?_; prim_asm))
theorem kw_disjointGroup (hP : Prim0 P) {cc : CC} {t : Bool} {c : Int} {n : Nat} : ∀ {is js : List DInterval}, Kw P (disjointGroup cc t c n is js) := by
  induction n with
  | zero => intro is js; exact Kw.pure
  | succ n ih =>
    intro is js
    cases js with
    | nil => exact Kw.pure
    | cons j js => unfold disjointGroup; kw_auto; exact ih
macro_rules | `(tactic| kw_step) => `(tactic| (with_reducible refine kw_disjointGroup ?_; prim_asm))
theorem kw_disjointRunGroups (hP : Prim0 P) {cc : CC} {t : Bool} {c : Int} {f : Bool} {gs : List (List DInterval)} :
    ∀ {ds : List DInterval}, Kw P (disjointRunGroups cc t c f gs ds) := by
  induction gs with
  | nil => intro ds; exact Kw.pure
  | cons g gs ih => intro ds; unfold disjointRunGroups; kw_auto <;> exact ih
macro_rules | `(tactic| kw_step) => `(tactic| (with_reducible refine kw_disjointRunGroups ?_; prim_asm))
theorem kw_disjointRun (hP : Prim0 P) {cc : CC} {t : Bool} {c : Int} {f : Bool} {is : List DInterval} : Kw P (disjointRun cc t c f is) := by
  unfold disjointRun; kw_auto
macro_rules | `(tactic| kw_step) => `(tactic| (with_reducible refine kw_disjointRun ?_; prim_asm))
theorem kw_disjointLoad (hP : Prim0 P) {is : List DInterval} : Kw P (disjointLoad is) := by
  induction is with
  | nil => exact Kw.pure
  | cons i is ih => unfold disjointLoad; kw_auto
macro_rules | `(tactic| kw_step) => `(tactic| (with_reducible refine kw_disjointLoad ?_; prim_asm))
theorem kw_markInactiveS (hP : Prim0 P) {n : Nat} : Kw P (markInactiveS n) := by unfold markInactiveS; kw_auto
macro_rules | `(tactic| kw_step) => `(tactic| (with_reducible refine kw_markInactiveS ?_; prim_asm))
theorem kw_sumPropagate (hP : Prim0 P) {cc : CC} {n : Nat} {b t : Bool} {l r : Int} {es : List (Int × Nat)} : Kw P (sumPropagate cc n b t l r es) := by unfold sumPropagate; kw_auto
macro_rules | `(tactic| kw_step) => `(tactic| (with_reducible refine kw_sumPropagate ?_; prim_asm))
theorem kw_distinctPropagate (hP : Prim0 P) {cc : CC} {n : Nat} {l : Int} {es : List (List (Int × Nat) × Int)} : Kw P (distinctPropagate cc n l es) := by unfold distinctPropagate; kw_auto
macro_rules | `(tactic| kw_step) => `(tactic| (with_reducible refine kw_distinctPropagate ?_; prim_asm))
theorem kw_nonlinearPropagate (hP : Prim0 P) {cc : CC} {n : Nat} {x y z : Nat} {a b c : Int} : Kw P (nonlinearPropagate cc n a x y b z c) := by unfold nonlinearPropagate; kw_auto
macro_rules | `(tactic| kw_step) => `(tactic| (with_reducible refine kw_nonlinearPropagate ?_; prim_asm))
theorem kw_disjointPropagate (hP : Prim0 P) {cc : CC} {n : Nat} {l : Int} : Kw P (disjointPropagate cc n l) := by unfold disjointPropagate; kw_auto
macro_rules | `(tactic| kw_step) => `(tactic| (with_reducible refine kw_disjointPropagate ?_; prim_asm))
theorem kw_propagateCS (hP : Prim0 P) {cc : CC} {n : Nat} {b : Bool} : Kw P (propagateCS cc b n) := by unfold propagateCS; kw_auto
macro_rules | `(tactic| kw_step) => `(tactic| (with_reducible refine kw_propagateCS ?_; prim_asm))
theorem kw_updateUpperLit (hP : PrimN P) {cc : CC} {l v : Nat} {a b c : Int} : Kw P (updateUpperLit cc l v a b c) := by
  refine ⟨fun W r W' h hp => ?_⟩
  unfold updateUpperLit at h
  rw [bind_iff] at h
  obtain ⟨vs, W1, h1, h⟩ := h
  obtain ⟨hv, rfl⟩ := getVar_iff.mp h1
  split_ifs at h with hc
  · refine Kw.kw (P := P) ?_ _ _ _ h hp
    kw_auto
  · rw [bind_iff] at h
    obtain ⟨_, W2, h2, h⟩ := h
    have hp2 : P W2 := by
      unfold Clingcon.whenS at h2
      split_ifs at h2 with h3
      · refine hP.updUpper h2 (fun vs' hv' => ?_) hp
        rw [hv] at hv'; injection hv' with hv'; subst hv'
        simp at h3; omega
      · obtain ⟨-, rfl⟩ := pure_iff.mp h2; exact hp
    refine Kw.kw (P := P) ?_ _ _ _ h hp2
    kw_auto
macro_rules | `(tactic| kw_step) => `(tactic| (with_reducible refine kw_updateUpperLit ?_; prim_asm))
theorem kw_updateLowerLit (hP : PrimN P) {cc : CC} {l v : Nat} {a b c : Int} : Kw P (updateLowerLit cc l v a b c) := by
  refine ⟨fun W r W' h hp => ?_⟩
  unfold updateLowerLit at h
  rw [bind_iff] at h
  obtain ⟨vs, W1, h1, h⟩ := h
  obtain ⟨hv, rfl⟩ := getVar_iff.mp h1
  split_ifs at h with hc
  · refine Kw.kw (P := P) ?_ _ _ _ h hp
    kw_auto
  · rw [bind_iff] at h
    obtain ⟨_, W2, h2, h⟩ := h
    have hp2 : P W2 := by
      unfold Clingcon.whenS at h2
      split_ifs at h2 with h3
      · refine hP.updLower h2 (fun vs' hv' => ?_) hp
        rw [hv] at hv'; injection hv' with hv'; subst hv'
        simp at h3; omega
      · obtain ⟨-, rfl⟩ := pure_iff.mp h2; exact hp
    refine Kw.kw (P := P) ?_ _ _ _ h hp2
    kw_auto
macro_rules | `(tactic| kw_step) => `(tactic| (with_reducible refine kw_updateLowerLit ?_; prim_asm))
theorem kw_propagateFacts (hP : PrimN P) {cc : CC} {l : Nat} {fs : List (Int × Nat × Int × Int)} : Kw P (propagateFacts cc l fs) := by
  induction fs with
  | nil => exact Kw.pure
  | cons f fs ih => obtain ⟨a, b, c, d⟩ := f; unfold propagateFacts; kw_auto
macro_rules | `(tactic| kw_step) => `(tactic| (with_reducible refine kw_propagateFacts ?_; prim_asm))
theorem kw_updateDomain (hP : PrimN P) {cc : CC} {l : Int} : Kw P (updateDomain cc l) := by
  have hc : Kw P (modify (fun W : World => { W with factmap := [] }) : SM Unit) :=
    ⟨fun W a W' hx hp => by rw [modify_iff.mp hx]; exact hP.clear _ hp⟩
  unfold updateDomain; kw_auto
macro_rules | `(tactic| kw_step) => `(tactic| (with_reducible refine PrimD.domain ?_ _ _; prim_asm))
theorem PrimN.toPrimD (hP : PrimN P) : PrimD P := ⟨hP.toPrim0, hP.levels, fun _ _ => kw_updateDomain hP, hP.step⟩
theorem Prim.toPrimU (hP : Prim P) : PrimU P := ⟨hP.toPrimD, hP.popLower, hP.popUpper⟩
theorem kw_propagateLit (hP : PrimD P) {cc : CC} {l : Int} : Kw P (propagateLit cc l) := by unfold propagateLit; kw_auto
macro_rules | `(tactic| kw_step) => `(tactic| (with_reducible refine kw_propagateLit ?_; prim_asm))
theorem kw_propagateLits (hP : PrimD P) {cc : CC} {ls : List Int} : Kw P (propagateLits cc ls) := by
  induction ls with
  | nil => exact Kw.pure
  | cons l ls ih => unfold propagateLits; kw_auto
macro_rules | `(tactic| kw_step) => `(tactic| (with_reducible refine kw_propagateLits ?_; prim_asm))
theorem kw_pushLevel (hP : PrimD P) {n : Nat} : Kw P (pushLevel n) := by
  unfold pushLevel
  exact Kw.bind Kw.curLevel (fun _ => Kw.whenS (Kw.modifyL hP.levels (fun W => ⟨_, rfl⟩)))
macro_rules | `(tactic| kw_step) => `(tactic| (with_reducible refine kw_pushLevel ?_; prim_asm))
theorem kw_solverPropagate (hP : PrimD P) {cc : CC} {ls : List Int} : Kw P (solverPropagate cc ls) := by unfold solverPropagate; kw_auto
macro_rules | `(tactic| kw_step) => `(tactic| (with_reducible refine kw_solverPropagate ?_; prim_asm))
theorem kw_integrateFacts (hP : PrimD P) {cc : CC} : Kw P (integrateFacts cc) := by unfold integrateFacts; kw_auto
macro_rules | `(tactic| kw_step) => `(tactic| (with_reducible refine kw_integrateFacts ?_; prim_asm))
theorem kw_deliver (hP : Prim0 P) {n : Nat} : Kw P (deliver n) := by
  refine ⟨fun W a W' h hp => ?_⟩
  unfold deliver at h
  simp only [smok] at h
  obtain ⟨W1, W2, ⟨rfl, rfl⟩, b1, W3, ⟨h1, rfl⟩, b2, W4, ⟨h2, rfl⟩, rfl⟩ := h
  exact hP.book _ _ ((lv_updateLowers h2).trans (lv_updateUppers h1)) hp
macro_rules | `(tactic| kw_step) => `(tactic| (with_reducible refine kw_deliver ?_; prim_asm))
theorem kw_checkOne (hP : Prim0 P) {cc : CC} {b : Bool} {n : Nat} : Kw P (checkOne cc b n) := by unfold checkOne; kw_auto
macro_rules | `(tactic| kw_step) => `(tactic| (with_reducible refine kw_checkOne ?_; prim_asm))
theorem kw_checkTodo (hP : Prim0 P) {cc : CC} {b : Bool} {ns : List Nat} : Kw P (checkTodo cc b ns) := by
  induction ns with
  | nil => exact Kw.pure
  | cons l ls ih => unfold checkTodo; kw_auto
macro_rules | `(tactic| kw_step) => `(tactic| (with_reducible refine kw_checkTodo ?_; prim_asm))
theorem kw_checkLoop (hP : PrimD P) {cc : CC} {b : Bool} {l n : Nat} : Kw P (checkLoop cc b l n) := by
  induction n with
  | zero => exact Kw.ub
  | succ n ih => unfold checkLoop; kw_auto
macro_rules | `(tactic| kw_step) => `(tactic| (with_reducible refine kw_checkLoop ?_; prim_asm))
theorem kw_solverCheck (hP : PrimD P) {cc : CC} {b : Bool} {n : Nat} : Kw P (solverCheck cc b n) := by unfold solverCheck; kw_auto
macro_rules | `(tactic| kw_step) => `(tactic| (with_reducible refine kw_solverCheck ?_; prim_asm))
theorem kw_factLoop (hP : PrimD P) (ho : ∀ W n, P W → P { W with book.trailOffset := n }) {cc : CC} {t : List SEv → List Int} {b : Bool} {l n : Nat} : Kw P (factLoop cc t b l n) := by
  induction n with
  | zero => exact Kw.ub
  | succ n ih =>
    have hm : ∀ n, Kw P (modify (fun W : World => { W with book.trailOffset := n }) : SM Unit) :=
      fun n => ⟨fun W a W' hx hp => by rw [modify_iff.mp hx]; exact ho _ _ hp⟩
    unfold factLoop
    refine Kw.bind (by kw_auto) (fun _ => ?_)
    split
    · exact Kw.pure
    · refine Kw.bind Kw.get (fun _ => ?_)
      dsimp only
      split
      · exact Kw.pure
      · refine Kw.bind (by kw_auto) (fun _ => ?_)
        split
        · exact Kw.pure
        · exact Kw.bind (hm _) (fun _ => by kw_auto)
macro_rules | `(tactic| kw_step) => `(tactic| (with_reducible refine kw_factLoop ?_ ?_ <;> prim_asm))
theorem kw_solverSimplify (hP : PrimD P) (ho : ∀ W n, P W → P { W with book.trailOffset := n }) {cc : CC} {t : List SEv → List Int} {b : Bool} {n : Nat} : Kw P (solverSimplify cc t b n) := by unfold solverSimplify; kw_auto
macro_rules | `(tactic| kw_step) => `(tactic| (with_reducible refine kw_solverSimplify ?_ ?_ <;> prim_asm))
theorem kw_splitVar (hP : Prim0 P) {cc : CC} {v : Nat} : Kw P (splitVar cc v) := by unfold splitVar; kw_auto
macro_rules | `(tactic| kw_step) => `(tactic| (with_reducible refine kw_splitVar ?_; prim_asm))
theorem kw_splitEach (hP : Prim0 P) {cc : CC} {vs : List Nat} : Kw P (splitEach cc vs) := by
  induction vs with
  | nil => exact Kw.pure
  | cons v vs ih => unfold splitEach; kw_auto
macro_rules | `(tactic| kw_step) => `(tactic| (with_reducible refine kw_splitEach ?_; prim_asm))
theorem kw_checkValue (hP : Prim0 P) {es : List (Int × Nat)} : Kw P (checkValue es) := by
  induction es with
  | nil => exact Kw.pure
  | cons e es ih => unfold checkValue; kw_auto
macro_rules | `(tactic| kw_step) => `(tactic| (with_reducible refine kw_checkValue ?_; prim_asm))
theorem kw_sumCheckFull (hP : Prim0 P) {c : CState} {r : Int} {es : List (Int × Nat)} : Kw P (sumCheckFull c r es) := by unfold sumCheckFull; kw_auto
macro_rules | `(tactic| kw_step) => `(tactic| (with_reducible refine kw_sumCheckFull ?_; prim_asm))
theorem kw_distinctCheckFull (hP : Prim0 P) {es : List (List (Int × Nat) × Int)} : ∀ {vs : List Int}, Kw P (distinctCheckFull es vs) := by
  induction es with
  | nil => intro vs; exact Kw.pure
  | cons e es ih => intro vs; unfold distinctCheckFull; kw_auto; exact ih
macro_rules | `(tactic| kw_step) => `(tactic| (with_reducible refine kw_distinctCheckFull ?_; prim_asm))
theorem kw_disjointCheckFull (hP : Prim0 P) {es : List (Int × Nat)} : ∀ {s : IntervalSet}, Kw P (disjointCheckFull es s) := by
  induction es with
  | nil => intro vs; exact Kw.pure
  | cons e es ih => intro vs; unfold disjointCheckFull; kw_auto; exact ih
macro_rules | `(tactic| kw_step) => `(tactic| (with_reducible refine kw_disjointCheckFull ?_; prim_asm))
theorem kw_nonlinearCheckFull (hP : Prim0 P) {ca cb r : Int} {x y z : Nat} : Kw P (nonlinearCheckFull ca x y cb z r) := by unfold nonlinearCheckFull; kw_auto
macro_rules | `(tactic| kw_step) => `(tactic| (with_reducible refine kw_nonlinearCheckFull ?_; prim_asm))
theorem kw_checkFullCS (hP : Prim0 P) {c : CState} : Kw P (checkFullCS c) := by unfold checkFullCS; kw_auto
macro_rules | `(tactic| kw_step) => `(tactic| (with_reducible refine kw_checkFullCS ?_; prim_asm))
theorem kw_checkSolution (hP : Prim0 P) {cc : CC} {cs : List CState} : Kw P (checkSolution cc cs) := by
  induction cs with
  | nil => exact Kw.pure
  | cons c cs ih => unfold checkSolution; kw_auto
macro_rules | `(tactic| kw_step) => `(tactic| (with_reducible refine kw_checkSolution ?_; prim_asm))

theorem kw_takeUpper (hP : Prim0 P) {cc : CC} {v : Nat} {o : VarState} : Kw P (takeUpper cc v o) := by unfold takeUpper; kw_auto
macro_rules | `(tactic| kw_step) => `(tactic| (with_reducible refine kw_takeUpper ?_; prim_asm))
theorem kw_takeLower (hP : Prim0 P) {cc : CC} {v : Nat} {o : VarState} : Kw P (takeLower cc v o) := by unfold takeLower; kw_auto
macro_rules | `(tactic| kw_step) => `(tactic| (with_reducible refine kw_takeLower ?_; prim_asm))
theorem kw_takeBounds (hP : Prim0 P) {cc : CC} {os : List VarState} : ∀ {v : Nat}, Kw P (takeBounds cc v os) := by
  induction os with
  | nil => intro v; exact Kw.pure
  | cons o os ih => intro v; unfold takeBounds; kw_auto; exact ih
macro_rules | `(tactic| kw_step) => `(tactic| (with_reducible refine kw_takeBounds ?_; prim_asm))
theorem kw_undoLowers (hP : PrimP P) {vs : List Nat} : Kw P (undoLowers vs) := by
  induction vs with
  | nil => exact Kw.pure
  | cons l ls ih => unfold undoLowers; kw_auto
macro_rules | `(tactic| kw_step) => `(tactic| (with_reducible refine kw_undoLowers ?_; prim_asm))
theorem kw_undoUppers (hP : PrimP P) {vs : List Nat} : Kw P (undoUppers vs) := by
  induction vs with
  | nil => exact Kw.pure
  | cons l ls ih => unfold undoUppers; kw_auto
macro_rules | `(tactic| kw_step) => `(tactic| (with_reducible refine kw_undoUppers ?_; prim_asm))
theorem kw_levelUndo (hP : PrimP P) {l : Lvl} : Kw P (levelUndo l) := by unfold levelUndo; kw_auto
macro_rules | `(tactic| kw_step) => `(tactic| (with_reducible refine kw_levelUndo ?_; prim_asm))
theorem kw_solverUndo (hP : PrimP P)  : Kw P (solverUndo) := by
  have := Kw.modifyL hP.levels (f := fun W => { W with book.levels := W.book.levels.tail }) (fun W => ⟨_, rfl⟩)
  unfold solverUndo; kw_auto
macro_rules | `(tactic| kw_step) => `(tactic| (with_reducible refine kw_solverUndo ?_; prim_asm))
theorem kw_splitFirst (hP : Prim0 P) {cc : CC} {vs : List Nat} : Kw P (splitFirst cc vs) := by
  induction vs with
  | nil => exact Kw.pure
  | cons l ls ih => unfold splitFirst; kw_auto
macro_rules | `(tactic| kw_step) => `(tactic| (with_reducible refine kw_splitFirst ?_; prim_asm))
theorem kw_solverCheckFull (hP : Prim0 P) {cc : CC} {b : Bool} : Kw P (solverCheckFull cc b) := by unfold solverCheckFull; kw_auto
macro_rules | `(tactic| kw_step) => `(tactic| (with_reducible refine kw_solverCheckFull ?_; prim_asm))
theorem kw_solverDecide (hP : Prim0 P) {cc : CC} {l : Int} : Kw P (solverDecide cc l) := by unfold solverDecide; kw_auto
macro_rules | `(tactic| kw_step) => `(tactic| (with_reducible refine kw_solverDecide ?_; prim_asm))
theorem kw_updateBounds (hP : PrimD P) {cc : CC} {os : List VarState} {b : Bool} {n : Nat} : Kw P (updateBounds cc os b n) := by unfold updateBounds; kw_auto
macro_rules | `(tactic| kw_step) => `(tactic| (with_reducible refine kw_updateBounds ?_; prim_asm))
theorem kw_solverUpdate (hP : PrimD P) {n : Nat} : Kw P (solverUpdate n) := by unfold solverUpdate; kw_auto
macro_rules | `(tactic| kw_step) => `(tactic| (with_reducible refine kw_solverUpdate ?_; prim_asm))
theorem kw_distinctInit (hP : Prim0 P) {es : List (List (Int × Nat) × Int)} : ∀ {n : Nat} {c : CState}, Kw P (distinctInit n es c) := by
  induction es with
  | nil => intro n c; exact Kw.pure
  | cons e es ih => intro n c; unfold distinctInit; kw_auto; exact ih
macro_rules | `(tactic| kw_step) => `(tactic| (with_reducible refine kw_distinctInit ?_; prim_asm))
theorem kw_initState (hP : Prim0 P) {c : Constr} : Kw P (initState c) := by cases c <;> unfold initState <;> kw_auto
macro_rules | `(tactic| kw_step) => `(tactic| (with_reducible refine kw_initState ?_; prim_asm))
theorem kw_addVarWatch (hP : Prim0 P) {v n : Nat} {i : Int} : Kw P (addVarWatch v i n) := by unfold addVarWatch; kw_auto
macro_rules | `(tactic| kw_step) => `(tactic| (with_reducible refine kw_addVarWatch ?_; prim_asm))
theorem kw_removeVarWatch (hP : Prim0 P) {v n : Nat} {i : Int} : Kw P (removeVarWatch v i n) := by unfold removeVarWatch; kw_auto
macro_rules | `(tactic| kw_step) => `(tactic| (with_reducible refine kw_removeVarWatch ?_; prim_asm))
theorem kw_addVarWatches (hP : Prim0 P) {n : Nat} {ws : List (Int × Nat)} : Kw P (addVarWatches n ws) := by
  induction ws with
  | nil => exact Kw.pure
  | cons e es ih => unfold addVarWatches; kw_auto
macro_rules | `(tactic| kw_step) => `(tactic| (with_reducible refine kw_addVarWatches ?_; prim_asm))
theorem kw_removeVarWatches (hP : Prim0 P) {n : Nat} {ws : List (Int × Nat)} : Kw P (removeVarWatches n ws) := by
  induction ws with
  | nil => exact Kw.pure
  | cons e es ih => unfold removeVarWatches; kw_auto
macro_rules | `(tactic| kw_step) => `(tactic| (with_reducible refine kw_removeVarWatches ?_; prim_asm))
theorem kw_addConstraint (hP : Prim0 P) {c : Constr} : Kw P (addConstraint c) := by unfold addConstraint; kw_auto
macro_rules | `(tactic| kw_step) => `(tactic| (with_reducible refine kw_addConstraint ?_; prim_asm))
theorem kw_removeConstraint (hP : Prim0 P) {n : Nat} : Kw P (removeConstraint n) := by unfold removeConstraint; kw_auto
macro_rules | `(tactic| kw_step) => `(tactic| (with_reducible refine kw_removeConstraint ?_; prim_asm))

/-- All calls but adding a variable, adding a constraint over one variable, and calls of the clause creator. -/
theorem kw_exec (hP : PrimU P) (ho : ∀ W n, P W → P { W with book.trailOffset := n }) {op : Op} (h1 : ∀ lo hi, op = .addVar lo hi → Kw P (addVar lo hi))
    (h2 : ∀ cc l co v r s, op = .simple cc l co v r s → Kw P (addSimple cc l co v r s)) (h3 : op ≠ .fresh) (h4 : ∀ e, op ≠ .post e) : Kw P op.exec := by
  cases op with
  | addVar lo hi => have := h1 lo hi rfl; unfold Op.exec; kw_auto
  | simple cc l co v r s => exact h2 cc l co v r s rfl
  | fresh => exact absurd rfl h3
  | post e => exact absurd rfl (h4 e)
  | _ => unfold Op.exec; kw_auto

/-- Furthermore, without backtracking. -/
theorem kw_execD (hP : PrimD P) (ho : ∀ W n, P W → P { W with book.trailOffset := n }) {op : Op} (h0 : op ≠ .undo) (h1 : ∀ lo hi, op = .addVar lo hi → Kw P (addVar lo hi))
    (h2 : ∀ cc l co v r s, op = .simple cc l co v r s → Kw P (addSimple cc l co v r s)) (h3 : op ≠ .fresh) (h4 : ∀ e, op ≠ .post e) : Kw P op.exec := by
  cases op with
  | addVar lo hi => have := h1 lo hi rfl; unfold Op.exec; kw_auto
  | simple cc l co v r s => exact h2 cc l co v r s rfl
  | fresh => exact absurd rfl h3
  | post e => exact absurd rfl (h4 e)
  | undo => exact absurd rfl h0
  | _ => unfold Op.exec; kw_auto

/-! ### Calls that do not integrate facts -/

theorem kwi_integrateFacts {cc : CC} (h : cc.level ≠ 0) : Kw P (integrateFacts cc) := by
  refine ⟨fun W a W' hx hp => ?_⟩
  unfold integrateFacts at hx
  simp only [smok] at hx
  obtain ⟨W1, W2, ⟨rfl, rfl⟩, hx⟩ := hx
  rcases hx with ⟨-, -, rfl⟩ | ⟨-, _, W3, ⟨hc, rfl⟩, -⟩
  · exact hp
  · simp only [beq_iff_eq] at hc
    exact absurd hc h

theorem kwi_checkLoop (hP : Prim0 P) {cc : CC} {b : Bool} {l n : Nat} (hi : Kw P (integrateFacts cc)) : Kw P (checkLoop cc b l n) := by
  induction n with
  | zero => exact Kw.ub
  | succ n ih => unfold checkLoop; kw_auto

theorem kwi_solverCheck (hP : Prim0 P) {cc : CC} {b : Bool} {n : Nat} (hi : Kw P (integrateFacts cc)) : Kw P (solverCheck cc b n) := by
  have := fun l => kwi_checkLoop hP (b := b) (l := l) (n := n) hi
  unfold solverCheck; kw_auto
  exact this _

theorem kwi_updateBounds (hP : Prim0 P) {cc : CC} {os : List VarState} {b : Bool} {n : Nat} (hi : Kw P (integrateFacts cc)) : Kw P (updateBounds cc os b n) := by
  have := kwi_solverCheck hP (b := b) (n := n) hi
  unfold updateBounds; kw_auto

end Clingcon
