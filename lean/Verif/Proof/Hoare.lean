import Verif.Spec.Order
import Verif.Proof.VarState

/-! Partial correctness of computations of the solver. -/
set_option linter.unusedSimpArgs false

namespace Clingcon
open Spec

/-- The pending facts are true. -/
def FactsHold (σ : Nat → Int) (W : World) : Prop :=
  ∀ f v k p, (f, v, k, p) ∈ W.factmap → (if f = TRUE_LIT then σ v ≤ k else k < σ v)

/-- What is assumed about a final state: the order literals are respected and, if `m` holds, everything
posted holds and pending facts are true. -/
def Asm (β : Nat → Bool) (σ : Nat → Int) (m : Bool) (W : World) : Prop :=
  Respects β σ W.log ∧ (m = true → AllHold β W.log ∧ FactsHold σ W)

/-- `W'` extends what has been posted in `W`. -/
def Grow (m : Bool) (W W' : World) : Prop :=
  (∃ new, W'.log = new ++ W.log) ∧ (m = true → ∃ new, W'.factmap = W.factmap ++ new)

theorem Grow.refl (m : Bool) (W : World) : Grow m W W := ⟨⟨[], rfl⟩, fun _ => ⟨[], by simp⟩⟩

theorem Grow.trans {m : Bool} {W1 W2 W3 : World} (h1 : Grow m W1 W2) (h2 : Grow m W2 W3) : Grow m W1 W3 := by
  obtain ⟨⟨n1, e1⟩, f1⟩ := h1
  obtain ⟨⟨n2, e2⟩, f2⟩ := h2
  refine ⟨⟨n2 ++ n1, by rw [e2, e1, List.append_assoc]⟩, fun hm => ?_⟩
  obtain ⟨k1, g1⟩ := f1 hm
  obtain ⟨k2, g2⟩ := f2 hm
  exact ⟨k1 ++ k2, by rw [g2, g1, List.append_assoc]⟩

theorem Grow.asm {β : Nat → Bool} {σ : Nat → Int} {m : Bool} {W W' : World} (h : Grow m W W') (ha : Asm β σ m W') : Asm β σ m W := by
  obtain ⟨⟨n, e⟩, f⟩ := h
  refine ⟨fun l v k hm => ha.1 l v k (by rw [e]; exact List.mem_append_right _ hm), fun hm => ⟨?_, ?_⟩⟩
  · intro ev hev
    exact (ha.2 hm).1 ev (by rw [e]; exact List.mem_append_right _ hev)
  · intro g v k p hg
    obtain ⟨k1, g1⟩ := f hm
    exact (ha.2 hm).2 g v k p (by rw [g1]; exact List.mem_append_left _ hg)

theorem Grow.same {m : Bool} {W W' : World} (h1 : W'.log = W.log) (h2 : W'.factmap = W.factmap) : Grow m W W' :=
  ⟨⟨[], h1⟩, fun _ => ⟨[], by simp [h2]⟩⟩

theorem Grow.ev {m : Bool} {W W' : World} {e : SEv} (h1 : W'.log = e :: W.log) (h2 : W'.factmap = W.factmap) : Grow m W W' :=
  ⟨⟨[e], h1⟩, fun _ => ⟨[], by simp [h2]⟩⟩

theorem Grow.fact {m : Bool} {W W' : World} {f : Int × Nat × Int × Int} (h1 : W'.log = W.log) (h2 : W'.factmap = W.factmap ++ [f]) : Grow m W W' :=
  ⟨⟨[], h1⟩, fun _ => ⟨[f], h2⟩⟩

/-- If the computation succeeds, then what was posted is extended, and if additionally `P` holds before and
the assumptions hold for the final state, then `Q` holds afterwards. -/
def Tr (β : Nat → Bool) (σ : Nat → Int) (m : Bool) {α : Type} (P : World → Prop) (x : SM α) (Q : α → World → Prop) : Prop :=
  ∀ W a W', x W = .ok (a, W') → Grow m W W' ∧ (P W → Asm β σ m W' → Q a W')

theorem SM.bind_ok {α γ : Type} {x : SM α} {f : α → SM γ} {W : World} {r : γ × World}
    (h : (x >>= f) W = .ok r) : ∃ a W', x W = .ok (a, W') ∧ f a W' = .ok r := by
  have h : Except.bind (x W) (fun p => f p.1 p.2) = .ok r := h
  cases e : x W with
  | error e' => rw [e] at h; cases h
  | ok p =>
    rw [e] at h
    exact ⟨p.1, p.2, rfl, h⟩

variable {β : Nat → Bool} {σ : Nat → Int} {m : Bool} {α γ : Type}

theorem Tr.bind {P : World → Prop} {x : SM α} {Q : α → World → Prop} {f : α → SM γ} {R : γ → World → Prop}
    (hx : Tr β σ m P x Q) (hf : ∀ a, Tr β σ m (Q a) (f a) R) : Tr β σ m P (x >>= f) R := by
  intro W b W' h
  obtain ⟨a, W1, h1, h2⟩ := SM.bind_ok h
  obtain ⟨g1, q1⟩ := hx _ _ _ h1
  obtain ⟨g2, q2⟩ := hf a _ _ _ h2
  exact ⟨g1.trans g2, fun hP hr => q2 (q1 hP (g2.asm hr)) hr⟩

theorem Tr.conseq {P P' : World → Prop} {x : SM α} {Q Q' : α → World → Prop} (h : Tr β σ m P' x Q')
    (h1 : ∀ W, P W → P' W) (h2 : ∀ a W, Q' a W → Q a W) : Tr β σ m P x Q := by
  intro W a W' hx
  obtain ⟨e, q⟩ := h _ _ _ hx
  exact ⟨e, fun hP hr => h2 _ _ (q (h1 _ hP) hr)⟩

theorem Tr.pre {P P' : World → Prop} {x : SM α} {Q : α → World → Prop} (h : Tr β σ m P' x Q)
    (h1 : ∀ W, P W → P' W) : Tr β σ m P x Q := h.conseq h1 (fun _ _ h => h)

theorem Tr.post {P : World → Prop} {x : SM α} {Q Q' : α → World → Prop} (h : Tr β σ m P x Q')
    (h2 : ∀ a W, Q' a W → Q a W) : Tr β σ m P x Q := h.conseq (fun _ h => h) h2

theorem Tr.pure {P : World → Prop} {a : α} {Q : α → World → Prop} (h : ∀ W, P W → Q a W) :
    Tr β σ m P (Pure.pure a) Q := by
  intro W b W' hx
  injection hx with hx
  injection hx with h1 h2
  subst h1; subst h2
  exact ⟨Grow.refl _ _, fun hP _ => h _ hP⟩

theorem Tr.ub {P : World → Prop} {Q : α → World → Prop} : Tr β σ m P SM.ub Q := by
  intro W a W' h; cases h

theorem Tr.ite {P : World → Prop} {c : Prop} [Decidable c] {x y : SM α} {Q : α → World → Prop}
    (hx : c → Tr β σ m P x Q) (hy : ¬ c → Tr β σ m P y Q) : Tr β σ m P (if c then x else y) Q := by
  by_cases h : c
  · rw [if_pos h]; exact hx h
  · rw [if_neg h]; exact hy h

theorem Tr.whenS {P : World → Prop} {b : Bool} {x : SM Unit} {Q : Unit → World → Prop}
    (hx : b = true → Tr β σ m P x Q) (hy : b = false → ∀ W, P W → Q () W) : Tr β σ m P (whenS b x) Q := by
  cases b with
  | true => exact hx rfl
  | false => exact Tr.pure (hy rfl)

theorem Tr.assertS {P : World → Prop} {b : Bool} {Q : Unit → World → Prop}
    (h : b = true → ∀ W, P W → Q () W) : Tr β σ m P (assertS b) Q := by
  unfold Clingcon.assertS
  cases b with
  | true => exact Tr.pure (h rfl)
  | false => exact Tr.ub

theorem Tr.liftRes {P : World → Prop} {r : Res α} {Q : α → World → Prop}
    (h : ∀ a, r = .ok a → ∀ W, P W → Q a W) : Tr β σ m P (liftRes r) Q := by
  intro W a W' hx
  unfold Clingcon.liftRes at hx
  cases r with
  | error e => cases hx
  | ok b =>
    injection hx with hx
    injection hx with h1 h2
    subst h1; subst h2
    exact ⟨Grow.refl _ _, fun hP _ => h _ rfl _ hP⟩

theorem Tr.modify {P : World → Prop} {f : World → World} {Q : Unit → World → Prop}
    (hl : ∀ W, Grow m W (f W)) (h : ∀ W, P W → Asm β σ m (f W) → Q () (f W)) :
    Tr β σ m P (modify f) Q := by
  intro W a W' hx
  injection hx with hx
  injection hx with h1 h2
  subst h2
  exact ⟨hl W, h W⟩

theorem Tr.read {P : World → Prop} {f : World → α} {Q : α → World → Prop}
    (h : ∀ W, P W → Q (f W) W) : Tr β σ m P (fun W => .ok (f W, W)) Q := by
  intro W a W' hx
  injection hx with hx
  injection hx with h1 h2
  subst h1; subst h2
  exact ⟨Grow.refl _ _, fun hP _ => h _ hP⟩

theorem Tr.get {P : World → Prop} {Q : World → World → Prop} (h : ∀ W, P W → Q W W) : Tr β σ m P (get : SM World) Q :=
  Tr.read (f := id) h

theorem Tr.getVar {P : World → Prop} {v : Nat} {Q : VarState → World → Prop}
    (h : ∀ vs W, P W → W.vars[v]? = some vs → Q vs W) : Tr β σ m P (getVar v) Q := by
  intro W a W' hx
  unfold Clingcon.getVar at hx
  split at hx
  · rename_i vs e
    injection hx with hx
    injection hx with h1 h2
    subst h1; subst h2
    exact ⟨Grow.refl _ _, fun hP _ => h _ _ hP e⟩
  · cases hx

theorem Tr.modify' {P : World → Prop} {f : World → World} {Q : Unit → World → Prop}
    (hl : ∀ W, Grow m W (f W)) (h : ∀ W, P W → Asm β σ m (f W) → Q () (f W)) :
    Tr β σ m P (fun W => .ok ((), f W)) Q := Tr.modify hl h

theorem Tr.setVar {P : World → Prop} {v : Nat} {vs : VarState} {Q : Unit → World → Prop}
    (h : ∀ W, P W → Q () { W with vars := W.vars.set v vs }) : Tr β σ m P (setVar v vs) Q :=
  Tr.modify (fun _ => Grow.same rfl rfl) (fun W hW _ => h W hW)

theorem Tr.discard {P : World → Prop} {x : SM α} {Q : Unit → World → Prop} (h : Tr β σ m P x (fun _ W => Q () W)) :
    Tr β σ m P (Functor.discard x) Q := by
  have : (Functor.discard x : SM Unit) = (x >>= fun _ => Pure.pure ()) := rfl
  rw [this]
  exact Tr.bind h (fun _ => Tr.pure (fun _ h => h))

theorem Tr.addClause {P : World → Prop} {cc : CC} {c : List Int} {Q : Bool → World → Prop}
    (h : ∀ W b, P W → Asm β σ m { W with log := .clause c :: W.log } → Q b { W with log := .clause c :: W.log }) :
    Tr β σ m P (addClause cc c) Q := by
  intro W a W' hx
  injection hx with hx
  injection hx with h1 h2
  subst h1; subst h2
  exact ⟨Grow.ev rfl rfl, fun hP hr => h _ _ hP hr⟩

theorem Tr.ccPropagate {P : World → Prop} {cc : CC} {Q : Bool → World → Prop}
    (h : ∀ W b, P W → Q b { W with log := .propagate :: W.log }) : Tr β σ m P (ccPropagate cc) Q := by
  intro W a W' hx
  injection hx with hx
  injection hx with h1 h2
  subst h1; subst h2
  exact ⟨Grow.ev rfl rfl, fun hP _ => h _ _ hP⟩

/-- The log is extended. -/
structure Ext' (m : Bool) (x : SM α) : Prop where
  ext : ∀ W a W', x W = .ok (a, W') → Grow m W W'

theorem Tr.ext {P : World → Prop} {x : SM α} {Q : α → World → Prop} (h : Tr β σ m P x Q) : Ext' m x :=
  ⟨fun _ _ _ hx => (h _ _ _ hx).1⟩

theorem Ext'.bind {x : SM α} {f : α → SM γ} (hx : Ext' m x) (hf : ∀ a, Ext' m (f a)) : Ext' m (x >>= f) := by
  refine ⟨fun W b W' h => ?_⟩
  obtain ⟨a, W1, h1, h2⟩ := SM.bind_ok h
  exact (hx.ext _ _ _ h1).trans ((hf a).ext _ _ _ h2)

theorem Ext'.pure {a : α} : Ext' m (Pure.pure a : SM α) := by
  refine ⟨fun W b W' h => ?_⟩; injection h with h; injection h with h1 h2; subst h2; exact Grow.refl _ _

theorem Ext'.read {f : World → α} : Ext' m (fun W => .ok (f W, W)) := by
  refine ⟨fun W b W' h => ?_⟩; injection h with h; injection h with h1 h2; subst h2; exact Grow.refl _ _

theorem Ext'.ub : Ext' m (SM.ub : SM α) := by refine ⟨fun W b W' h => ?_⟩; cases h

theorem Ext'.throw {e : Err} : Ext' m (throw e : SM α) := by refine ⟨fun W b W' h => ?_⟩; cases h

theorem Ext'.whenS {b : Bool} {x : SM Unit} (hx : Ext' m x) : Ext' m (whenS b x) := by
  cases b with
  | true => exact hx
  | false => exact Ext'.pure

theorem Ext'.assertS {b : Bool} : Ext' m (assertS b) := by
  cases b with
  | true => exact Ext'.pure
  | false => exact Ext'.ub

theorem Ext'.liftRes {r : Res α} : Ext' m (liftRes r) := by
  cases r with
  | ok a => exact Ext'.pure
  | error e => refine ⟨fun W b W' h => ?_⟩; cases h

theorem Ext'.modify {f : World → World} (hl : ∀ W, Grow m W (f W)) : Ext' m (_root_.modify f : SM Unit) := by
  refine ⟨fun W b W' h => ?_⟩; injection h with h; injection h with h1 h2; subst h2; exact hl W

theorem Ext'.getVar {v : Nat} : Ext' m (getVar v) := by
  refine ⟨fun W b W' h => ?_⟩
  unfold Clingcon.getVar at h
  split at h
  · injection h with h; injection h with h1 h2; subst h2; exact Grow.refl _ _
  · cases h

theorem Ext'.curLevel : Ext' m curLevel := by
  refine ⟨fun W b W' h => ?_⟩
  unfold Clingcon.curLevel at h
  split at h
  · cases h
  · injection h with h; injection h with h1 h2; subst h2; exact Grow.refl _ _

theorem Ext'.discard {x : SM α} (h : Ext' m x) : Ext' m (Functor.discard x) :=
  Ext'.bind (f := fun _ => Pure.pure ()) h (fun _ => Ext'.pure)

theorem Ext'.addClause {cc : CC} {c : List Int} : Ext' m (addClause cc c) := by
  refine ⟨fun W b W' h => ?_⟩; injection h with h; injection h with h1 h2; subst h2; exact Grow.ev rfl rfl

theorem Ext'.ccPropagate {cc : CC} : Ext' m (ccPropagate cc) := by
  refine ⟨fun W b W' h => ?_⟩; injection h with h; injection h with h1 h2; subst h2; exact Grow.ev rfl rfl

theorem Ext'.newLit : Ext' m newLit := by
  refine ⟨fun W b W' h => ?_⟩; injection h with h; injection h with h1 h2; subst h2; exact Grow.ev rfl rfl

theorem Ext'.addWatch {l : Int} : Ext' m (addWatch l) := by
  refine ⟨fun W b W' h => ?_⟩; injection h with h; injection h with h1 h2; subst h2; exact Grow.ev rfl rfl

/-- One step of proving that the log is extended; extended below for each function. -/
syntax "ext_step" : tactic
macro_rules | `(tactic| ext_step) => `(tactic| dsimp only)
macro_rules | `(tactic| ext_step) => `(tactic| intro _)
macro_rules | `(tactic| ext_step) => `(tactic| split)
macro_rules | `(tactic| ext_step) => `(tactic| with_reducible exact Ext'.read)
macro_rules | `(tactic| ext_step) => `(tactic| refine Ext'.modify ?_; intro _; exact Grow.same rfl rfl)
macro_rules | `(tactic| ext_step) => `(tactic| refine Ext'.modify ?_; intro _; exact Grow.ev rfl rfl)
macro_rules | `(tactic| ext_step) => `(tactic| refine Ext'.modify ?_; intro _; exact Grow.fact rfl rfl)
macro_rules | `(tactic| ext_step) => `(tactic| with_reducible apply Ext'.bind)
macro_rules | `(tactic| ext_step) => `(tactic| with_reducible apply Ext'.whenS)
macro_rules | `(tactic| ext_step) => `(tactic| with_reducible apply Ext'.discard)
macro_rules | `(tactic| ext_step) => `(tactic| with_reducible exact Ext'.throw)
macro_rules | `(tactic| ext_step) => `(tactic| with_reducible exact Ext'.pure)
macro_rules | `(tactic| ext_step) => `(tactic| with_reducible exact Ext'.ub)
macro_rules | `(tactic| ext_step) => `(tactic| with_reducible exact Ext'.assertS)
macro_rules | `(tactic| ext_step) => `(tactic| with_reducible exact Ext'.liftRes)
macro_rules | `(tactic| ext_step) => `(tactic| with_reducible exact Ext'.getVar)
macro_rules | `(tactic| ext_step) => `(tactic| with_reducible exact Ext'.curLevel)
macro_rules | `(tactic| ext_step) => `(tactic| with_reducible exact Ext'.addClause)
macro_rules | `(tactic| ext_step) => `(tactic| with_reducible exact Ext'.ccPropagate)
macro_rules | `(tactic| ext_step) => `(tactic| with_reducible exact Ext'.newLit)
macro_rules | `(tactic| ext_step) => `(tactic| with_reducible exact Ext'.addWatch)
macro_rules | `(tactic| ext_step) => `(tactic| assumption)
macro "ext_auto" : tactic => `(tactic| repeat' ext_step)

/-- A pure hypothesis may be used. -/
theorem Tr.assume {p : Prop} {P : World → Prop} {x : SM α} {Q : α → World → Prop}
    (hl : Ext' m x) (h : p → Tr β σ m P x Q) : Tr β σ m (fun W => P W ∧ p) x Q := by
  intro W a W' hx
  refine ⟨hl.ext _ _ _ hx, ?_⟩
  rintro ⟨hP, hp⟩ hr
  exact (h hp _ _ _ hx).2 hP hr

theorem Tr.ofForall {ι : Type} {P : ι → World → Prop} {x : SM α} {Q : ι → α → World → Prop} (hx : Ext' m x)
    (h : ∀ i, Tr β σ m (P i) x (Q i)) : Tr β σ m (fun W => ∃ i, P i W) x (fun a W => ∃ i, Q i a W) := by
  intro W a W' hxx
  refine ⟨hx.ext _ _ _ hxx, ?_⟩
  rintro ⟨i, hP⟩ hr
  exact ⟨i, (h i _ _ _ hxx).2 hP hr⟩

end Clingcon

/-! The log is extended by all functions on order literals. -/
namespace Clingcon

variable {m : Bool}

theorem ext_qTrue {cc : CC} {l : Int} : Ext' m (qTrue cc l) := Ext'.read
theorem ext_qFalse {cc : CC} {l : Int} : Ext' m (qFalse cc l) := Ext'.read
theorem ext_qFixed {cc : CC} {l : Int} : Ext' m (qFixed cc l) := Ext'.read
theorem ext_qValue {cc : CC} {l : Int} : Ext' m (qValue cc l) := Ext'.read
theorem ext_qLitLevel {cc : CC} {l : Int} : Ext' m (qLitLevel cc l) := Ext'.read
theorem ext_qLevel {cc : CC} : Ext' m (qLevel cc) := Ext'.read
theorem ext_litmapAt {l : Int} : Ext' m (litmapAt l) := Ext'.read
theorem ext_get : Ext' m (get : SM World) := Ext'.read (f := id)
theorem ext_setVar {v : Nat} {vs : VarState} : Ext' m (setVar v vs) := Ext'.modify (f := fun W => { W with vars := W.vars.set v vs }) (fun _ => Grow.same rfl rfl)
theorem ext_setEntry {l : Int} {e : LitmapEntry} : Ext' m (setEntry l e) :=
  Ext'.modify (f := fun W => { W with litmap := W.litmap.set (mapOffset l) e }) (fun _ => Grow.same rfl rfl)
theorem ext_unsetEntry {l : Int} : Ext' m (unsetEntry l) :=
  Ext'.modify (f := fun W => { W with litmap := W.litmap.set (mapOffset l) { W.litmap.getD (mapOffset l) {} with prev := 0 } }) (fun _ => Grow.same rfl rfl)

macro_rules | `(tactic| ext_step) => `(tactic| with_reducible exact ext_qTrue)
macro_rules | `(tactic| ext_step) => `(tactic| with_reducible exact ext_qFalse)
macro_rules | `(tactic| ext_step) => `(tactic| with_reducible exact ext_qFixed)
macro_rules | `(tactic| ext_step) => `(tactic| with_reducible exact ext_qValue)
macro_rules | `(tactic| ext_step) => `(tactic| with_reducible exact ext_qLitLevel)
macro_rules | `(tactic| ext_step) => `(tactic| with_reducible exact ext_qLevel)
macro_rules | `(tactic| ext_step) => `(tactic| with_reducible exact ext_litmapAt)
macro_rules | `(tactic| ext_step) => `(tactic| with_reducible exact ext_get)
macro_rules | `(tactic| ext_step) => `(tactic| with_reducible exact ext_setVar)
macro_rules | `(tactic| ext_step) => `(tactic| with_reducible exact ext_setEntry)
macro_rules | `(tactic| ext_step) => `(tactic| with_reducible exact ext_unsetEntry)

theorem ext_relink {l : Int} {f : LitmapEntry → LitmapEntry} : Ext' m (relink l f) := by unfold relink; ext_auto
macro_rules | `(tactic| ext_step) => `(tactic| with_reducible exact ext_relink)

theorem ext_updateLitmap {var : Nat} {lit value : Int} : Ext' m (updateLitmap var lit value) := by
  unfold updateLitmap; ext_auto
macro_rules | `(tactic| ext_step) => `(tactic| with_reducible exact ext_updateLitmap)

theorem ext_litmapAdd {var : Nat} {lit value : Int} : Ext' m (litmapAdd var value lit) := by
  unfold litmapAdd
  ext_auto
macro_rules | `(tactic| ext_step) => `(tactic| with_reducible exact ext_litmapAdd)

theorem ext_getLiteral {cc : CC} {var : Nat} {value : Int} : Ext' m (getLiteral cc var value) := by
  unfold getLiteral; ext_auto
macro_rules | `(tactic| ext_step) => `(tactic| with_reducible exact ext_getLiteral)

theorem ext_updateLiteral {cc : CC} {var : Nat} {value : Int} {t : Option Bool} : Ext' m (updateLiteral cc var value t) := by
  unfold updateLiteral; ext_auto
macro_rules | `(tactic| ext_step) => `(tactic| with_reducible exact ext_updateLiteral)

theorem ext_pushLevel {n : Nat} : Ext' m (pushLevel n) := by unfold pushLevel; ext_auto
theorem ext_updateLower {lvl : Nat} {var : Nat} {value : Int} : Ext' m (updateLower lvl var value) := by
  unfold updateLower; ext_auto
theorem ext_updateUpper {lvl : Nat} {var : Nat} {value : Int} : Ext' m (updateUpper lvl var value) := by
  unfold updateUpper; ext_auto
macro_rules | `(tactic| ext_step) => `(tactic| with_reducible exact ext_pushLevel)
macro_rules | `(tactic| ext_step) => `(tactic| with_reducible exact ext_updateLower)
macro_rules | `(tactic| ext_step) => `(tactic| with_reducible exact ext_updateUpper)

theorem ext_propagateVariables {cc : CC} {s : Int} {ls : List Int} : ∀ {r : Int}, Ext' m (propagateVariables cc s r ls) := by
  induction ls with
  | nil => intro r; exact Ext'.pure
  | cons l ls ih => intro r; unfold propagateVariables; ext_auto <;> exact ih
macro_rules | `(tactic| ext_step) => `(tactic| with_reducible exact ext_propagateVariables)

theorem ext_updateUpperLit {cc : CC} {lvl : Nat} {var : Nat} {lit value p : Int} : Ext' m (updateUpperLit cc lvl var lit value p) := by
  unfold updateUpperLit; ext_auto
theorem ext_updateLowerLit {cc : CC} {lvl : Nat} {var : Nat} {lit value p : Int} : Ext' m (updateLowerLit cc lvl var lit value p) := by
  unfold updateLowerLit; ext_auto
macro_rules | `(tactic| ext_step) => `(tactic| with_reducible exact ext_updateUpperLit)
macro_rules | `(tactic| ext_step) => `(tactic| with_reducible exact ext_updateLowerLit)

theorem ext_makeFact {a b : Int} : Ext' m (makeFact a b) := by unfold makeFact; ext_auto
macro_rules | `(tactic| ext_step) => `(tactic| with_reducible exact ext_makeFact)

theorem ext_dropFact {f v : Int} {var : Nat} : Ext' m (dropFact f var v) := by unfold dropFact; ext_auto
theorem ext_dropLit {l : Int} {e : LitmapEntry} : Ext' m (dropLit l e) := by unfold dropLit; ext_auto
macro_rules | `(tactic| ext_step) => `(tactic| with_reducible exact ext_dropFact)
macro_rules | `(tactic| ext_step) => `(tactic| with_reducible exact ext_dropLit)

theorem ext_propagateFacts {cc : CC} {lvl : Nat} {fs : List (Int × Nat × Int × Int)} : Ext' m (propagateFacts cc lvl fs) := by
  induction fs with
  | nil => exact Ext'.pure
  | cons f fs ih => obtain ⟨a, b, c, d⟩ := f; unfold propagateFacts; ext_auto
macro_rules | `(tactic| ext_step) => `(tactic| with_reducible exact ext_propagateFacts)

theorem ext_simplifyLit {cc : CC} {lit : Int} : Ext' m (simplifyLit cc lit) := by unfold simplifyLit; ext_auto
macro_rules | `(tactic| ext_step) => `(tactic| with_reducible exact ext_simplifyLit)

theorem Grow.clear {W W' : World} (h1 : W'.log = W.log) : Grow false W W' := ⟨⟨[], h1⟩, fun h => by cases h⟩
theorem ext_updateDomain {cc : CC} {lit : Int} : Ext' false (updateDomain cc lit) := by
  unfold updateDomain; ext_auto; exact Ext'.modify (fun _ => Grow.clear rfl)
macro_rules | `(tactic| ext_step) => `(tactic| with_reducible exact ext_updateDomain)

theorem ext_updateStep {ms n : Nat} : ∀ {o : Nat}, Ext' m (updateStep ms n o) := by
  induction n with
  | zero => intro o; exact Ext'.pure
  | succ n ih => intro o; unfold updateStep; ext_auto; exact ih
macro_rules | `(tactic| ext_step) => `(tactic| with_reducible exact ext_updateStep)

theorem ext_solverUpdate {ms : Nat} : Ext' m (solverUpdate ms) := by unfold solverUpdate; ext_auto

theorem ext_prevTrue {cc : CC} {var : Nat} {p : Option Int} : Ext' m (prevTrue cc var p) := by cases p <;> unfold prevTrue <;> ext_auto
theorem ext_succTrue {cc : CC} {var : Nat} {p : Option Int} : Ext' m (succTrue cc var p) := by cases p <;> unfold succTrue <;> ext_auto
macro_rules | `(tactic| ext_step) => `(tactic| with_reducible exact ext_prevTrue)
macro_rules | `(tactic| ext_step) => `(tactic| with_reducible exact ext_succTrue)
theorem ext_canReuse {var : Nat} {value : Int} {b : Bool} : Ext' m (canReuse var value b) := by unfold canReuse; ext_auto
theorem ext_freeLit {cc : CC} {l value : Int} {var : Nat} : Ext' m (freeLit cc l var value) := by unfold freeLit; ext_auto
macro_rules | `(tactic| ext_step) => `(tactic| with_reducible exact ext_canReuse)
macro_rules | `(tactic| ext_step) => `(tactic| with_reducible exact ext_freeLit)

theorem ext_addDomLower {cc : CC} {lit : Int} {var : Nat} {dom : List (Int × Int)} : ∀ {p : Option Int},
    Ext' m (addDomLower cc lit var p dom) := by
  induction dom with
  | nil => intro p; exact Ext'.pure
  | cons d dom ih => intro p; obtain ⟨a, b⟩ := d; unfold addDomLower; ext_auto <;> exact ih
theorem ext_addDomUpper {cc : CC} {lit : Int} {var : Nat} {dom : List (Int × Int)} : ∀ {p : Option Int},
    Ext' m (addDomUpper cc lit var p dom) := by
  induction dom with
  | nil => intro p; exact Ext'.pure
  | cons d dom ih => intro p; obtain ⟨a, b⟩ := d; unfold addDomUpper; ext_auto <;> exact ih
macro_rules | `(tactic| ext_step) => `(tactic| with_reducible exact ext_addDomLower)
macro_rules | `(tactic| ext_step) => `(tactic| with_reducible exact ext_addDomUpper)
theorem ext_addDom {cc : CC} {lit : Int} {var : Nat} {dom : List (Int × Int)} : Ext' m (addDom cc lit var dom) := by
  unfold addDom; ext_auto
theorem ext_useLit {cc : CC} {lit : Int} {var : Nat} {v : Int} : Ext' m (useLit cc lit var v) := by unfold useLit; ext_auto
theorem ext_useFact {t : Bool} {var : Nat} {v : Int} : Ext' m (useFact t var v) := by unfold useFact; ext_auto
macro_rules | `(tactic| ext_step) => `(tactic| with_reducible exact ext_useLit)
macro_rules | `(tactic| ext_step) => `(tactic| with_reducible exact ext_useFact)
theorem ext_addSimple {cc : CC} {lit co rhs : Int} {var : Nat} {s : Bool} : Ext' m (addSimple cc lit co var rhs s) := by
  unfold addSimple; ext_auto
macro_rules | `(tactic| ext_step) => `(tactic| with_reducible exact ext_addDom)
macro_rules | `(tactic| ext_step) => `(tactic| with_reducible exact ext_addSimple)

end Clingcon
