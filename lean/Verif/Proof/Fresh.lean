import Verif.Proof.Attach

/-! Relations between states that are preserved by all functions on order literals, and the freshness of
new order literals. -/
set_option linter.unusedSimpArgs false

namespace Clingcon
open Spec

variable {α γ : Type} {R : World → World → Prop}

/-- Successful computations relate the states before and after. -/
structure Pres (R : World → World → Prop) (x : SM α) : Prop where
  pres : ∀ W a W', x W = .ok (a, W') → R W W'

/-- A log entry other than the meaning of an order literal. -/
def SEv.isOrder : SEv → Bool
  | .order _ _ _ => true
  | _ => false

/-- Reflexive and transitive relations that only depend on the introduction of order literals. -/
structure Closed (R : World → World → Prop) : Prop where
  refl : ∀ W, R W W
  trans : ∀ W1 W2 W3, R W1 W2 → R W2 W3 → R W1 W3
  same : ∀ W W', W'.log = W.log → W'.nextLit = W.nextLit → R W W'
  ev : ∀ W W' e, e.isOrder = false → W'.log = e :: W.log → W'.nextLit = W.nextLit → R W W'
  getLit : ∀ cc var value, Pres R (getLiteral cc var value)

section
variable (hR : Closed R)
include hR

theorem Pres.bind {x : SM α} {f : α → SM γ} (hx : Pres R x) (hf : ∀ a, Pres R (f a)) : Pres R (x >>= f) := by
  refine ⟨fun W b W' h => ?_⟩
  obtain ⟨a, W1, h1, h2⟩ := bind_iff.mp h
  exact hR.trans _ _ _ (hx.pres _ _ _ h1) ((hf a).pres _ _ _ h2)

theorem Pres.pure {a : α} : Pres R (Pure.pure a : SM α) :=
  ⟨fun W b W' h => by obtain ⟨-, rfl⟩ := pure_iff.mp h; exact hR.refl _⟩

theorem Pres.ub : Pres R (SM.ub : SM α) := ⟨fun W b W' h => by cases h⟩
theorem Pres.throw {e : Err} : Pres R (throw e : SM α) := ⟨fun W b W' h => by cases h⟩

theorem Pres.whenS {b : Bool} {x : SM Unit} (h : Pres R x) : Pres R (whenS b x) := by
  unfold Clingcon.whenS; split
  · exact h
  · exact Pres.pure hR

theorem Pres.assertS {b : Bool} : Pres R (assertS b) := by
  unfold Clingcon.assertS; split
  · exact Pres.pure hR
  · exact Pres.ub hR

theorem Pres.discard {x : SM α} (h : Pres R x) : Pres R (Functor.discard x : SM Unit) :=
  ⟨fun W b W' hx => by obtain ⟨a, ha⟩ := discard_iff.mp hx; exact h.pres _ _ _ ha⟩

theorem Pres.same {x : SM α} (h : ∀ W a W', x W = .ok (a, W') → W'.log = W.log ∧ W'.nextLit = W.nextLit) : Pres R x :=
  ⟨fun W a W' hx => hR.same _ _ (h _ _ _ hx).1 (h _ _ _ hx).2⟩

theorem Pres.modify {f : World → World} (h1 : ∀ W, (f W).log = W.log) (h2 : ∀ W, (f W).nextLit = W.nextLit) : Pres R (_root_.modify f : SM Unit) :=
  Pres.same hR (fun W a W' hx => by rw [modify_iff.mp hx]; exact ⟨h1 W, h2 W⟩)

theorem Pres.liftRes {r : Res α} : Pres R (liftRes r) := Pres.same hR (fun _ _ _ h => by obtain ⟨-, rfl⟩ := liftRes_iff.mp h; simp)
theorem Pres.getVar {v : Nat} : Pres R (getVar v) := Pres.same hR (fun _ _ _ h => by obtain ⟨-, rfl⟩ := getVar_iff.mp h; simp)
theorem Pres.curLevel : Pres R curLevel := Pres.same hR (fun _ _ _ h => by obtain ⟨-, rfl⟩ := curLevel_iff.mp h; simp)
theorem Pres.setVar {v : Nat} {vs : VarState} : Pres R (setVar v vs) := Pres.same hR (fun _ _ _ h => by rw [setVar_iff.mp h]; simp)
theorem Pres.get : Pres R (get : SM World) := Pres.same hR (fun _ _ _ h => by obtain ⟨-, rfl⟩ := get_iff.mp h; simp)
theorem Pres.qTrue {cc : CC} {l : Int} : Pres R (qTrue cc l) := Pres.same hR (fun _ _ _ h => by obtain ⟨-, rfl⟩ := qTrue_iff.mp h; simp)
theorem Pres.qFalse {cc : CC} {l : Int} : Pres R (qFalse cc l) := Pres.same hR (fun _ _ _ h => by obtain ⟨-, rfl⟩ := qFalse_iff.mp h; simp)
theorem Pres.qFixed {cc : CC} {l : Int} : Pres R (qFixed cc l) := Pres.same hR (fun _ _ _ h => by obtain ⟨-, rfl⟩ := qFixed_iff.mp h; simp)
theorem Pres.qValue {cc : CC} {l : Int} : Pres R (qValue cc l) := Pres.same hR (fun _ _ _ h => by obtain ⟨-, rfl⟩ := qValue_iff.mp h; simp)
theorem Pres.qLitLevel {cc : CC} {l : Int} : Pres R (qLitLevel cc l) := Pres.same hR (fun _ _ _ h => by obtain ⟨-, rfl⟩ := qLitLevel_iff.mp h; simp)
theorem Pres.qLevel {cc : CC} : Pres R (qLevel cc) := Pres.same hR (fun _ _ _ h => by obtain ⟨-, rfl⟩ := qLevel_iff.mp h; simp)
theorem Pres.litmapAt {l : Int} : Pres R (litmapAt l) := Pres.same hR (fun _ _ _ h => by obtain ⟨-, rfl⟩ := litmapAt_iff.mp h; simp)
theorem Pres.setEntry {l : Int} {e : LitmapEntry} : Pres R (setEntry l e) := Pres.same hR (fun _ _ _ h => by rw [setEntry_iff.mp h]; simp)
theorem Pres.unsetEntry {l : Int} : Pres R (unsetEntry l) := Pres.same hR (fun _ _ _ h => by rw [unsetEntry_iff.mp h]; simp)
theorem Pres.updateLitmap {var : Nat} {lit value : Int} : Pres R (updateLitmap var lit value) :=
  Pres.same hR (fun _ _ _ h => by obtain ⟨vs, -, -, rfl⟩ := updateLitmap_iff.mp h; simp)
theorem Pres.addClause {cc : CC} {c : List Int} : Pres R (addClause cc c) :=
  ⟨fun W a W' h => by obtain ⟨-, rfl⟩ := addClause_iff.mp h; exact hR.ev _ _ _ rfl rfl rfl⟩
theorem Pres.ccPropagate {cc : CC} : Pres R (ccPropagate cc) :=
  ⟨fun W a W' h => by obtain ⟨-, rfl⟩ := ccPropagate_iff.mp h; exact hR.ev _ _ _ rfl rfl rfl⟩
theorem Pres.addWatch {l : Int} : Pres R (addWatch l) :=
  ⟨fun W a W' h => by rw [addWatch_iff.mp h]; exact hR.ev _ _ _ rfl rfl rfl⟩

end

/-- One step of proving that a relation is preserved. The hypothesis `Closed R` has to be named `hR`. -/
syntax "pres_step" : tactic
set_option hygiene false in
macro_rules | `(tactic| pres_step) => `(tactic| dsimp only)
macro_rules | `(tactic| pres_step) => `(tactic| intro _)
macro_rules | `(tactic| pres_step) => `(tactic| split)
macro_rules | `(tactic| pres_step) => `(tactic| refine Pres.modify (by assumption) ?_ ?_ <;> intro _ <;> rfl)
macro_rules | `(tactic| pres_step) => `(tactic| with_reducible refine Pres.bind (by assumption) ?_ ?_)
macro_rules | `(tactic| pres_step) => `(tactic| with_reducible refine Pres.whenS (by assumption) ?_)
macro_rules | `(tactic| pres_step) => `(tactic| with_reducible refine Pres.discard (by assumption) ?_)
macro_rules | `(tactic| pres_step) => `(tactic| with_reducible refine Pres.pure (by assumption))
macro_rules | `(tactic| pres_step) => `(tactic| with_reducible refine Pres.ub (by assumption))
macro_rules | `(tactic| pres_step) => `(tactic| with_reducible refine Pres.throw (by assumption))
macro_rules | `(tactic| pres_step) => `(tactic| with_reducible refine Pres.assertS (by assumption))
macro_rules | `(tactic| pres_step) => `(tactic| with_reducible refine Pres.liftRes (by assumption))
macro_rules | `(tactic| pres_step) => `(tactic| with_reducible refine Pres.getVar (by assumption))
macro_rules | `(tactic| pres_step) => `(tactic| with_reducible refine Pres.curLevel (by assumption))
macro_rules | `(tactic| pres_step) => `(tactic| with_reducible refine Pres.setVar (by assumption))
macro_rules | `(tactic| pres_step) => `(tactic| with_reducible refine Pres.get (by assumption))
macro_rules | `(tactic| pres_step) => `(tactic| with_reducible refine Pres.qTrue (by assumption))
macro_rules | `(tactic| pres_step) => `(tactic| with_reducible refine Pres.qFalse (by assumption))
macro_rules | `(tactic| pres_step) => `(tactic| with_reducible refine Pres.qFixed (by assumption))
macro_rules | `(tactic| pres_step) => `(tactic| with_reducible refine Pres.qValue (by assumption))
macro_rules | `(tactic| pres_step) => `(tactic| with_reducible refine Pres.qLitLevel (by assumption))
macro_rules | `(tactic| pres_step) => `(tactic| with_reducible refine Pres.qLevel (by assumption))
macro_rules | `(tactic| pres_step) => `(tactic| with_reducible refine Pres.litmapAt (by assumption))
macro_rules | `(tactic| pres_step) => `(tactic| with_reducible refine Pres.setEntry (by assumption))
macro_rules | `(tactic| pres_step) => `(tactic| with_reducible refine Pres.unsetEntry (by assumption))
macro_rules | `(tactic| pres_step) => `(tactic| with_reducible refine Pres.updateLitmap (by assumption))
macro_rules | `(tactic| pres_step) => `(tactic| with_reducible refine Pres.addClause (by assumption))
macro_rules | `(tactic| pres_step) => `(tactic| with_reducible refine Pres.ccPropagate (by assumption))
macro_rules | `(tactic| pres_step) => `(tactic| with_reducible refine Pres.addWatch (by assumption))
macro_rules | `(tactic| pres_step) => `(tactic| with_reducible refine Closed.getLit (by assumption) _ _ _)
macro_rules | `(tactic| pres_step) => `(tactic| assumption)
macro "pres_auto" : tactic => `(tactic| repeat' pres_step)

theorem Closed.updateLiteral (hR : Closed R) {cc : CC} {var : Nat} {value : Int} {t : Option Bool} : Pres R (updateLiteral cc var value t) := by
  unfold Clingcon.updateLiteral; pres_auto
macro_rules | `(tactic| pres_step) => `(tactic| with_reducible refine Closed.updateLiteral (by assumption))
theorem Closed.pushLevel (hR : Closed R) {n : Nat} : Pres R (pushLevel n) := by unfold Clingcon.pushLevel; pres_auto
macro_rules | `(tactic| pres_step) => `(tactic| with_reducible refine Closed.pushLevel (by assumption))
theorem Closed.updateLower (hR : Closed R) {lvl var : Nat} {value : Int} : Pres R (updateLower lvl var value) := by
  unfold Clingcon.updateLower; pres_auto
macro_rules | `(tactic| pres_step) => `(tactic| with_reducible refine Closed.updateLower (by assumption))
theorem Closed.updateUpper (hR : Closed R) {lvl var : Nat} {value : Int} : Pres R (updateUpper lvl var value) := by
  unfold Clingcon.updateUpper; pres_auto
macro_rules | `(tactic| pres_step) => `(tactic| with_reducible refine Closed.updateUpper (by assumption))
theorem Closed.propagateVariables (hR : Closed R) {cc : CC} {s : Int} {ls : List Int} : ∀ {r : Int}, Pres R (propagateVariables cc s r ls) := by
  induction ls with
  | nil => intro r; exact Pres.pure hR
  | cons l ls ih => intro r; unfold Clingcon.propagateVariables; pres_auto <;> exact ih
macro_rules | `(tactic| pres_step) => `(tactic| with_reducible refine Closed.propagateVariables (by assumption))
theorem Closed.updateUpperLit (hR : Closed R) {cc : CC} {lvl var : Nat} {lit value p : Int} : Pres R (updateUpperLit cc lvl var lit value p) := by
  unfold Clingcon.updateUpperLit; pres_auto
macro_rules | `(tactic| pres_step) => `(tactic| with_reducible refine Closed.updateUpperLit (by assumption))
theorem Closed.updateLowerLit (hR : Closed R) {cc : CC} {lvl var : Nat} {lit value p : Int} : Pres R (updateLowerLit cc lvl var lit value p) := by
  unfold Clingcon.updateLowerLit; pres_auto
macro_rules | `(tactic| pres_step) => `(tactic| with_reducible refine Closed.updateLowerLit (by assumption))
theorem Closed.makeFact (hR : Closed R) {a b : Int} : Pres R (makeFact a b) := by unfold Clingcon.makeFact; pres_auto
macro_rules | `(tactic| pres_step) => `(tactic| with_reducible refine Closed.makeFact (by assumption))
theorem Closed.dropFact (hR : Closed R) {f v : Int} {var : Nat} : Pres R (dropFact f var v) := by
  unfold Clingcon.dropFact; pres_auto
theorem Closed.dropLit (hR : Closed R) {l : Int} {e : LitmapEntry} : Pres R (dropLit l e) := by
  unfold Clingcon.dropLit; pres_auto
macro_rules | `(tactic| pres_step) => `(tactic| with_reducible refine Closed.dropFact (by assumption))
macro_rules | `(tactic| pres_step) => `(tactic| with_reducible refine Closed.dropLit (by assumption))

theorem Closed.propagateFacts (hR : Closed R) {cc : CC} {lvl : Nat} {fs : List (Int × Nat × Int × Int)} : Pres R (propagateFacts cc lvl fs) := by
  induction fs with
  | nil => exact Pres.pure hR
  | cons f fs ih => obtain ⟨a, b, c, d⟩ := f; unfold Clingcon.propagateFacts; pres_auto
macro_rules | `(tactic| pres_step) => `(tactic| with_reducible refine Closed.propagateFacts (by assumption))
theorem Closed.simplifyLit (hR : Closed R) {cc : CC} {lit : Int} : Pres R (simplifyLit cc lit) := by unfold Clingcon.simplifyLit; pres_auto
macro_rules | `(tactic| pres_step) => `(tactic| with_reducible refine Closed.simplifyLit (by assumption))
theorem Closed.updateDomain (hR : Closed R) {cc : CC} {lit : Int} : Pres R (updateDomain cc lit) := by unfold Clingcon.updateDomain; pres_auto
macro_rules | `(tactic| pres_step) => `(tactic| with_reducible refine Closed.updateDomain (by assumption))
theorem Closed.updateStep (hR : Closed R) {ms n : Nat} : ∀ {o : Nat}, Pres R (updateStep ms n o) := by
  induction n with
  | zero => intro o; exact Pres.pure hR
  | succ n ih => intro o; unfold Clingcon.updateStep; pres_auto; exact ih
macro_rules | `(tactic| pres_step) => `(tactic| with_reducible refine Closed.updateStep (by assumption))
theorem Closed.solverUpdate (hR : Closed R) {ms : Nat} : Pres R (solverUpdate ms) := by unfold Clingcon.solverUpdate; pres_auto
theorem Closed.prevTrue (hR : Closed R) {cc : CC} {var : Nat} {p : Option Int} : Pres R (prevTrue cc var p) := by
  cases p <;> unfold Clingcon.prevTrue <;> pres_auto
macro_rules | `(tactic| pres_step) => `(tactic| with_reducible refine Closed.prevTrue (by assumption))
theorem Closed.succTrue (hR : Closed R) {cc : CC} {var : Nat} {p : Option Int} : Pres R (succTrue cc var p) := by
  cases p <;> unfold Clingcon.succTrue <;> pres_auto
macro_rules | `(tactic| pres_step) => `(tactic| with_reducible refine Closed.succTrue (by assumption))
theorem Closed.addDomLower (hR : Closed R) {cc : CC} {lit : Int} {var : Nat} {dom : List (Int × Int)} : ∀ {p : Option Int},
    Pres R (addDomLower cc lit var p dom) := by
  induction dom with
  | nil => intro p; exact Pres.pure hR
  | cons d dom ih => intro p; obtain ⟨a, b⟩ := d; unfold Clingcon.addDomLower; pres_auto <;> exact ih
macro_rules | `(tactic| pres_step) => `(tactic| with_reducible refine Closed.addDomLower (by assumption))
theorem Closed.addDomUpper (hR : Closed R) {cc : CC} {lit : Int} {var : Nat} {dom : List (Int × Int)} : ∀ {p : Option Int},
    Pres R (addDomUpper cc lit var p dom) := by
  induction dom with
  | nil => intro p; exact Pres.pure hR
  | cons d dom ih => intro p; obtain ⟨a, b⟩ := d; unfold Clingcon.addDomUpper; pres_auto <;> exact ih
macro_rules | `(tactic| pres_step) => `(tactic| with_reducible refine Closed.addDomUpper (by assumption))
theorem Closed.addDom (hR : Closed R) {cc : CC} {lit : Int} {var : Nat} {dom : List (Int × Int)} : Pres R (addDom cc lit var dom) := by
  unfold Clingcon.addDom; pres_auto
theorem Closed.canReuse (hR : Closed R) {var : Nat} {value : Int} {b : Bool} : Pres R (canReuse var value b) := by
  unfold Clingcon.canReuse; pres_auto
macro_rules | `(tactic| pres_step) => `(tactic| with_reducible refine Closed.canReuse (by assumption))
theorem Closed.useFact (hR : Closed R) {t : Bool} {var : Nat} {v : Int} : Pres R (useFact t var v) := by unfold Clingcon.useFact; pres_auto
macro_rules | `(tactic| pres_step) => `(tactic| with_reducible refine Closed.useFact (by assumption))

theorem canReuse_strict {var : Nat} {value : Int} {s b : Bool} {W W' : World} (h : canReuse var value s W = .ok (b, W')) (hb : b = true) :
    s = true := by
  unfold canReuse at h
  simp only [smok] at h
  obtain ⟨vs, W1, ⟨-, rfl⟩, h⟩ := h
  rcases h with ⟨h1, b, W2, ⟨-, rfl⟩, rfl, rfl⟩ | ⟨-, rfl, rfl⟩
  · exact h1.1
  · cases hb

theorem Closed.addSimple (hR : Closed R) {cc : CC} {lit co rhs : Int} {var : Nat} {s : Bool}
    (hu : s = true → Pres R (useLit cc (if co < 0 then -lit else lit) var (simpleValue co rhs))) : Pres R (addSimple cc lit co var rhs s) := by
  unfold Clingcon.addSimple
  refine Pres.bind hR (Pres.qFalse hR) (fun f => ?_)
  split
  · exact Pres.pure hR
  refine Pres.bind hR (Pres.qValue hR) (fun truth => ?_)
  dsimp only
  refine ⟨fun W b W' h => ?_⟩
  obtain ⟨d, W1, h1, h2⟩ := bind_iff.mp h
  refine hR.trans _ _ _ ((Closed.canReuse hR).pres _ _ _ h1) ?_
  clear h
  cases d with
  | true =>
    have hs := canReuse_strict h1 rfl
    rw [if_pos rfl] at h2
    cases truth with
    | none => exact (hu hs).pres _ _ _ h2
    | some t => exact (Closed.useFact hR).pres _ _ _ h2
  | false =>
    rw [if_neg (by decide)] at h2
    refine Pres.pres ?_ _ _ _ h2
    pres_auto

/-! ### Fresh literals -/

/-- From `W` to `W'`, the meaning of order literals is only recorded for new literals or literals whose
meaning is implied by the condition `P` on the literals below `n0`. -/
def Fresh (σ : Nat → Int) (n0 : Int) (P : (Nat → Bool) → Prop) (W W' : World) : Prop :=
  0 < W.nextLit → n0 ≤ W.nextLit → W.nextLit ≤ W'.nextLit ∧ ∃ new, W'.log = new ++ W.log ∧
    (∀ l v k, SEv.order l v k ∈ new → |l| < W'.nextLit) ∧
    ∀ β, P β → ∃ β', agreeBelow W.nextLit β β' ∧ Respects β' σ new

variable {σ : Nat → Int} {n0 : Int} {P : (Nat → Bool) → Prop}

theorem Respects.congr {n : Int} {β β' : Nat → Bool} {log : List SEv} (h : agreeBelow n β β')
    (hl : ∀ l v k, SEv.order l v k ∈ log → |l| < n) (hr : Respects β σ log) : Respects β' σ log :=
  fun l v k hm => (litTrue_congr h (hl l v k hm)).symm.trans (hr l v k hm)

theorem agree_mono {n n' : Int} {β β' : Nat → Bool} (h : agreeBelow n β β') (hn : n' ≤ n) : agreeBelow n' β β' :=
  fun k hk => h k (by omega)
theorem agree_trans {n : Int} {β β' β'' : Nat → Bool} (h : agreeBelow n β β') (h' : agreeBelow n β' β'') : agreeBelow n β β'' :=
  fun k hk => (h k hk).trans (h' k hk)

/-- One new literal with a given truth value. -/
theorem extend_one {n : Int} (hn : 0 < n) (β : Nat → Bool) (l : Int) (hl : l = n ∨ l = -n) (p : Prop) :
    ∃ β', agreeBelow n β β' ∧ (litTrue β' l ↔ p) := by
  classical
  have ha : l.natAbs = n.natAbs := by rcases hl with rfl | rfl <;> simp
  refine ⟨fun k => if k = n.natAbs then (if l > 0 then decide p else !decide p) else β k, ?_, ?_⟩
  · intro k hk
    dsimp only
    rw [if_neg (by omega)]
  · unfold litTrue
    rw [ha]; dsimp only; rw [if_pos rfl]
    by_cases h : l > 0 <;> simp [h]

theorem fresh_getLiteral {cc : CC} {var : Nat} {value : Int} : Pres (Fresh σ n0 P) (getLiteral cc var value) := by
  refine ⟨fun W l W' h => ?_⟩
  intro hp hn
  unfold getLiteral at h
  simp only [smok] at h
  obtain ⟨vs, W1, ⟨hv, rfl⟩, h⟩ := h
  have triv : ∀ W2 : World, W2.log = W1.log → W2.nextLit = W1.nextLit → W1.nextLit ≤ W2.nextLit ∧ ∃ new, W2.log = new ++ W1.log ∧
    (∀ l v k, SEv.order l v k ∈ new → |l| < W2.nextLit) ∧ ∀ β, P β → ∃ β', agreeBelow W1.nextLit β β' ∧ Respects β' σ new :=
    fun W2 h1 h2 => ⟨h2.ge, [], h1, by simp, fun β _ => ⟨β, fun _ _ => rfl, fun _ _ _ h => by cases h⟩⟩
  rcases h with ⟨h1, rfl, rfl⟩ | ⟨h1, h⟩
  · exact triv _ rfl rfl
  rcases h with ⟨h2, rfl, rfl⟩ | ⟨h2, h⟩
  · exact triv _ rfl rfl
  obtain ⟨p, W2, ⟨hr, rfl⟩, _, W3, rfl, h⟩ := h
  rcases h with ⟨h3, h⟩ | ⟨h3, rfl, rfl⟩
  · obtain ⟨n, W4, ⟨rfl, rfl⟩, vs', W5, ⟨hwr, rfl⟩, _, W6, rfl, _, W7, ⟨hne, vs2, hv2, hne2, rfl⟩, _, W8, rfl, _, W9, rfl, rfl, rfl⟩ := h
    dsimp only
    refine ⟨by omega, _ :: _ :: _ :: [_], rfl, ?_, ?_⟩
    · intro l v k hm
      simp only [List.mem_cons, reduceCtorEq, SEv.order.injEq, List.not_mem_nil, or_false, false_or] at hm
      obtain ⟨rfl, rfl, rfl⟩ := hm
      split_ifs
      · rw [abs_neg, abs_of_pos hp]; omega
      · rw [abs_of_pos hp]; omega
    · intro β _
      obtain ⟨β', g1, g2⟩ := extend_one hp β (if value ≥ cc.conf.signValue then -W2.nextLit else W2.nextLit)
        (by split_ifs <;> simp) (σ var ≤ value)
      refine ⟨β', g1, fun l v k hm => ?_⟩
      simp only [List.mem_cons, reduceCtorEq, SEv.order.injEq, List.not_mem_nil, or_false, false_or] at hm
      obtain ⟨rfl, rfl, rfl⟩ := hm
      exact g2
  · exact triv _ rfl rfl

theorem fresh_closed (hP : ∀ β β', agreeBelow n0 β β' → P β → P β') : Closed (Fresh σ n0 P) := by
  refine ⟨?_, ?_, ?_, ?_, fun _ _ _ => fresh_getLiteral⟩
  · exact fun W _ _ => ⟨le_refl _, [], rfl, by simp, fun β _ => ⟨β, fun _ _ => rfl, fun _ _ _ h => by cases h⟩⟩
  · intro W1 W2 W3 h1 h2 hp hn
    obtain ⟨m1, new1, l1, b1, e1⟩ := h1 hp hn
    obtain ⟨m2, new2, l2, b2, e2⟩ := h2 (by omega) (by omega)
    refine ⟨by omega, new2 ++ new1, by rw [l2, l1, List.append_assoc], ?_, ?_⟩
    · intro l v k hm
      rcases List.mem_append.mp hm with hm | hm
      · exact b2 l v k hm
      · have := b1 l v k hm; omega
    · intro β hβ
      obtain ⟨β1, a1, r1⟩ := e1 β hβ
      obtain ⟨β2, a2, r2⟩ := e2 β1 (hP _ _ (agree_mono a1 hn) hβ)
      refine ⟨β2, agree_trans a1 (agree_mono a2 m1), fun l v k hm => ?_⟩
      rcases List.mem_append.mp hm with hm | hm
      · exact r2 l v k hm
      · exact Respects.congr a2 b1 r1 l v k hm
  · intro W W' h1 h2 _ _
    exact ⟨h2.ge, [], h1, by simp, fun β _ => ⟨β, fun _ _ => rfl, fun _ _ _ h => by cases h⟩⟩
  · intro W W' e he h1 h2 _ _
    have hno : ∀ l v k, SEv.order l v k ∉ [e] := by
      intro l v k hm
      rw [List.mem_singleton] at hm
      subst hm
      cases he
    exact ⟨h2.ge, [e], h1, fun l v k h => absurd h (hno l v k), fun β _ => ⟨β, fun _ _ => rfl, fun l v k h => absurd h (hno l v k)⟩⟩

theorem fresh_useLit (hP : ∀ β β', agreeBelow n0 β β' → P β → P β') {cc : CC} {lit value : Int} {var : Nat} (hl : |lit| < n0)
    (hm : ∀ β, P β → (litTrue β lit ↔ σ var ≤ value)) : Pres (Fresh σ n0 P) (useLit cc lit var value) := by
  have hR := fresh_closed (σ := σ) hP
  refine ⟨fun W b W' h hp hn => ?_⟩
  unfold useLit at h
  obtain ⟨o, W1, h1, h2⟩ := bind_iff.mp h
  clear h
  unfold freeLit at h1
  simp only [smok] at h1
  obtain ⟨e, W2, ⟨-, rfl⟩, h1⟩ := h1
  rcases h1 with ⟨-, rfl, rfl⟩ | ⟨-, h1⟩
  · simp only [smok] at h2
    obtain ⟨_, W3, rfl, _, W4, rfl, _, W5, ⟨-, vs1, g1, -, rfl⟩, vs, W6, ⟨g2, rfl⟩, vs', W7, ⟨g3, rfl⟩, _, W8, rfl, rfl, rfl⟩ := h2
    dsimp only
    refine ⟨le_refl _, _ :: _ :: [_], rfl, ?_, ?_⟩
    · intro l v k hm
      simp only [List.mem_cons, reduceCtorEq, SEv.order.injEq, List.not_mem_nil, or_false, false_or] at hm
      obtain ⟨rfl, rfl, rfl⟩ := hm
      omega
    · intro β hβ
      refine ⟨β, fun _ _ => rfl, fun l v k hm' => ?_⟩
      simp only [List.mem_cons, reduceCtorEq, SEv.order.injEq, List.not_mem_nil, or_false, false_or] at hm'
      obtain ⟨rfl, rfl, rfl⟩ := hm'
      exact hm β hβ
  · -- a new literal is used
    obtain ⟨l, W3, ⟨rfl, rfl⟩, _, W4, rfl, b1, W5, ⟨-, rfl⟩, h1⟩ := h1
    have key : ∀ l' v k, (SEv.order l' v k = SEv.order W2.nextLit var value) → |l'| < W2.nextLit + 1 := by
      intro l' v k h
      injection h with h _ _
      subst h
      rw [abs_of_pos hp]; omega
    rcases h1 with ⟨-, rfl, rfl⟩ | ⟨-, b2, W6, ⟨-, rfl⟩, h1⟩
    · simp only [smok] at h2
      obtain ⟨rfl, rfl⟩ := h2
      dsimp only
      refine ⟨by omega, _ :: _ :: [_], rfl, ?_, ?_⟩
      · intro l v k hm
        simp only [List.mem_cons, reduceCtorEq, List.not_mem_nil, or_false, false_or] at hm
        exact key l v k hm
      · intro β hβ
        obtain ⟨β', g1, g2⟩ := extend_one hp β W2.nextLit (Or.inl rfl) (σ var ≤ value)
        refine ⟨β', g1, fun l v k hm => ?_⟩
        simp only [List.mem_cons, reduceCtorEq, SEv.order.injEq, List.not_mem_nil, or_false, false_or] at hm
        obtain ⟨rfl, rfl, rfl⟩ := hm
        exact g2
    rcases h1 with ⟨-, rfl, rfl⟩ | ⟨-, rfl, rfl⟩
    · simp only [smok] at h2
      obtain ⟨rfl, rfl⟩ := h2
      dsimp only
      refine ⟨by omega, _ :: _ :: _ :: [_], rfl, ?_, ?_⟩
      · intro l v k hm
        simp only [List.mem_cons, reduceCtorEq, List.not_mem_nil, or_false, false_or] at hm
        exact key l v k hm
      · intro β hβ
        obtain ⟨β', g1, g2⟩ := extend_one hp β W2.nextLit (Or.inl rfl) (σ var ≤ value)
        refine ⟨β', g1, fun l v k hm => ?_⟩
        simp only [List.mem_cons, reduceCtorEq, SEv.order.injEq, List.not_mem_nil, or_false, false_or] at hm
        obtain ⟨rfl, rfl, rfl⟩ := hm
        exact g2
    · simp only [smok] at h2
      obtain ⟨_, W3, rfl, _, W4, rfl, _, W5, ⟨-, vs1, g1, -, rfl⟩, vs, W6, ⟨g2, rfl⟩, vs', W7, ⟨g3, rfl⟩, _, W8, rfl, rfl, rfl⟩ := h2
      dsimp only
      refine ⟨by omega, _ :: _ :: _ :: _ :: _ :: _ :: [_], rfl, ?_, ?_⟩
      · intro l v k hm
        simp only [List.mem_cons, reduceCtorEq, List.not_mem_nil, or_false, false_or] at hm
        exact key l v k (by tauto)
      · intro β hβ
        obtain ⟨β', g1, g2⟩ := extend_one hp β W2.nextLit (Or.inl rfl) (σ var ≤ value)
        refine ⟨β', g1, fun l v k hm => ?_⟩
        simp only [List.mem_cons, reduceCtorEq, SEv.order.injEq, List.not_mem_nil, or_false, false_or, or_self] at hm
        obtain ⟨rfl, rfl, rfl⟩ := hm
        exact g2

theorem fresh_addSimple (hP : ∀ β β', agreeBelow n0 β β' → P β → P β') {cc : CC} {lit co rhs : Int} {var : Nat} {s : Bool}
    (hl : |lit| < n0) (h0 : lit ≠ 0) (hco : co ≠ 0) (hm : ∀ β, P β → attached β lit s (co * σ var ≤ rhs)) :
    Pres (Fresh σ n0 P) (addSimple cc lit co var rhs s) := by
  refine Closed.addSimple (fresh_closed hP) (fun hs => fresh_useLit hP ?_ (fun β hβ => ?_))
  · split_ifs
    · rwa [abs_neg]
    · exact hl
  · rw [litTrue_signed h0, ← simple_iff hco]
    have := hm β hβ
    unfold attached at this
    rwa [if_pos hs] at this

end Clingcon
