import Verif.Proof.DistinctTerms
import Verif.Proof.LinksRun
import Verif.Proof.Base

/-! Preservation of properties of states by the translation of constraints. -/
set_option linter.unusedSimpArgs false
set_option linter.unusedVariables false
set_option linter.unnecessarySeqFocus false
namespace Clingcon
open Spec VarState

variable {cc : CC} {tc : TConf} {P : World → Prop} {W W' : World}

/-- The functions on which the translation of linear and distinct constraints with the given clause creator is built preserve the property. Only
variables with the given domains are added. -/
structure PrimS (cc : CC) (A : Int → Int → Prop) (P : World → Prop) : Prop where
  event : ∀ W e, e.posted = true → (∀ l w, e ≠ .minimize l w) → P W → P { W with log := e :: W.log }
  literal : ∀ v x, Kw P (getLiteral cc v x)
  newLit : Kw P newLit
  addVar : ∀ a b, A a b → Kw P (addVar a b)

/-- The functions on which translation is built preserve the property. -/
structure PrimT (cc : CC) (A : Int → Int → Prop) (P : World → Prop) : Prop where
  event : ∀ W e, e.posted = true → P W → P { W with log := e :: W.log }
  literal : ∀ v x, Kw P (getLiteral cc v x)
  newLit : Kw P newLit
  addVar : ∀ a b, A a b → Kw P (addVar a b)
  enable : ∀ W, P W → P { W with book.translateMinimize := true }

variable {A : Int → Int → Prop}

theorem PrimT.toS (h : PrimT cc A P) : PrimS cc A P := ⟨fun W e h1 _ => h.event W e h1, h.literal, h.newLit, h.addVar⟩

theorem PrimT.modify (hP : PrimT cc A P) : Kw P (_root_.modify (fun W => { W with book.translateMinimize := true }) : SM Unit) :=
  ⟨fun W a W' hx hp => by rw [modify_iff.mp hx]; exact hP.enable _ hp⟩
theorem PrimS.addClause (hP : PrimS cc A P) {c : List Int} : Kw P (addClause cc c) :=
  ⟨fun W _ _ h hp => by rw [(addClause_iff.mp h).2]; exact hP.event _ _ rfl (by simp) hp⟩
theorem PrimS.log (hP : PrimS cc A P) {e : SEv} (he : e.posted = true) (hm : ∀ l w, e ≠ .minimize l w) : Kw P (_root_.modify (fun W => { W with log := e :: W.log }) : SM Unit) :=
  ⟨fun W a W' hx hp => by rw [modify_iff.mp hx]; exact hP.event _ _ he hm hp⟩

theorem not_order {e : SEv} (h : e.posted = true) : ∀ l v k, e ≠ .order l v k := by
  rintro l v k rfl
  cases h

macro_rules | `(tactic| kw_step) => `(tactic| with_reducible exact PrimS.literal (by assumption) _ _)
macro_rules | `(tactic| kw_step) => `(tactic| with_reducible exact PrimS.newLit (by assumption))
macro_rules | `(tactic| kw_step) => `(tactic| with_reducible exact PrimS.addVar (by assumption) _ _ (by assumption))
macro_rules | `(tactic| kw_step) => `(tactic| with_reducible exact PrimS.addClause (by assumption))
macro_rules | `(tactic| kw_step) => `(tactic| with_reducible exact PrimT.modify (by assumption))
macro_rules | `(tactic| kw_step) => `(tactic| exact PrimS.log (by assumption) rfl (by simp))

theorem Reads.kw {α : Type} {x : SM α} (h : Reads x) : Kw P x := Kw.same h.reads

theorem kt_addWeight (hP : PrimS cc A P) {l b t : Int} {ws : List (Int × Int)} : Kw P (addWeight cc l ws b t) := by unfold addWeight; kw_auto
macro_rules | `(tactic| kw_step) => `(tactic| with_reducible exact kt_addWeight (by assumption))
theorem kt_addMinimize (hP : PrimT cc A P) {l b : Int} : Kw P (addMinimize l b) := by
  refine ⟨fun W a W' hx hp => ?_⟩
  unfold addMinimize at hx
  rw [modify_iff.mp hx]
  exact hP.event _ _ rfl hp
macro_rules | `(tactic| kw_step) => `(tactic| with_reducible exact kt_addMinimize (by assumption))
theorem kt_litRange (hP : PrimS cc A P) {v : Nat} : ∀ {n : Nat} {i : Int}, Kw P (litRange cc v n i) := by
  intro n
  induction n with
  | zero => intro i; unfold litRange; kw_auto
  | succ n ih => intro i; unfold litRange; kw_auto; exact ih
macro_rules | `(tactic| kw_step) => `(tactic| with_reducible exact kt_litRange (by assumption))
theorem kt_weightLits (hP : PrimS cc A P) {s : Int} {es : CoVarVec} : Kw P (weightLits cc s es) := by
  induction es with
  | nil => unfold weightLits; kw_auto
  | cons e es ih => obtain ⟨a, b⟩ := e; unfold weightLits; kw_auto
macro_rules | `(tactic| kw_step) => `(tactic| with_reducible exact kt_weightLits (by assumption))
theorem kt_weightTranslate (hP : PrimS cc A P) {l s : Int} {es : CoVarVec} : Kw P (weightTranslate cc l s es) := by unfold weightTranslate; kw_auto
macro_rules | `(tactic| kw_step) => `(tactic| with_reducible exact kt_weightTranslate (by assumption))
theorem kt_ratioParts {s : Int} {es : CoVarVec} : Kw P (ratioParts s es) := Reads.kw reads_ratioParts
macro_rules | `(tactic| kw_step) => `(tactic| with_reducible exact kt_ratioParts)
theorem kt_clauseEstimate {k : Nat} {es : CoVarVec} {a b m : Int} : Kw P (clauseEstimate k es a b m) := Reads.kw reads_clauseEstimate
macro_rules | `(tactic| kw_step) => `(tactic| with_reducible exact kt_clauseEstimate)
theorem kt_clauseTake (hP : PrimS cc A P) {es : CoVarVec} {l : Int} {f : CFrame} {fs : List CFrame} : Kw P (clauseTake cc es l f fs) := by unfold clauseTake; kw_auto
macro_rules | `(tactic| kw_step) => `(tactic| with_reducible exact kt_clauseTake (by assumption))
theorem kt_clausePut (hP : PrimS cc A P) {c : List Int} {j : Nat} {l : Int} : Kw P (clausePut c j l) := by unfold clausePut; kw_auto
macro_rules | `(tactic| kw_step) => `(tactic| with_reducible exact kt_clausePut (by assumption))
theorem kt_clauseStep (hP : PrimS cc A P) {es : CoVarVec} {l : Int} {b : Bool} {f : CFrame} {fs : List CFrame} {c : List Int} : Kw P (clauseStep cc es l b f fs c) := by
  unfold clauseStep; kw_auto
macro_rules | `(tactic| kw_step) => `(tactic| with_reducible exact kt_clauseStep (by assumption))
theorem kt_clauseLoop (hP : PrimS cc A P) {es : CoVarVec} {l : Int} {b : Bool} : ∀ {k : Nat} {fs : List CFrame} {c : List Int}, Kw P (clauseLoop cc es l b k fs c) := by
  intro k
  induction k with
  | zero => intro fs c; cases fs <;> unfold clauseLoop <;> kw_auto
  | succ k ih =>
    intro fs c
    cases fs with
    | nil => unfold clauseLoop; kw_auto
    | cons f fs => unfold clauseLoop; kw_auto; exact ih
macro_rules | `(tactic| kw_step) => `(tactic| with_reducible exact kt_clauseLoop (by assumption))
theorem kt_clauseTranslate (hP : PrimS cc A P) {k : Nat} {l a b : Int} {es : CoVarVec} {o : Bool} : Kw P (clauseTranslate cc k l es a b o) := by unfold clauseTranslate; kw_auto
macro_rules | `(tactic| kw_step) => `(tactic| with_reducible exact kt_clauseTranslate (by assumption))
theorem kt_sumTranslate (hP : PrimS cc A P) {k : Nat} {c : CState} {l r : Int} {es : CoVarVec} : Kw P (sumTranslate cc tc k c l r es) := by unfold sumTranslate; kw_auto
macro_rules | `(tactic| kw_step) => `(tactic| with_reducible exact kt_sumTranslate (by assumption))
theorem kt_requiredLiterals {es : CoVarVec} : Kw P (requiredLiterals es) := Reads.kw reads_requiredLiterals
macro_rules | `(tactic| kw_step) => `(tactic| with_reducible exact kt_requiredLiterals)
theorem kt_minimizeValues (hP : PrimT cc A P) {co : Int} {v : Nat} : ∀ {n : Nat} {i : Int}, Kw P (minimizeValues cc co v n i) := by
  have hS := hP.toS
  intro n
  induction n with
  | zero => intro i; unfold minimizeValues; kw_auto
  | succ n ih => intro i; unfold minimizeValues; kw_auto; exact ih
macro_rules | `(tactic| kw_step) => `(tactic| with_reducible exact kt_minimizeValues (by assumption))
theorem kt_minimizeElems (hP : PrimT cc A P) {es : CoVarVec} : Kw P (minimizeElems cc es) := by
  have hS := hP.toS
  induction es with
  | nil => unfold minimizeElems; kw_auto
  | cons e es ih => obtain ⟨a, b⟩ := e; unfold minimizeElems; kw_auto
macro_rules | `(tactic| kw_step) => `(tactic| with_reducible exact kt_minimizeElems (by assumption))
theorem kt_minimizeTranslate (hP : PrimT cc A P) {a : Int} {es : CoVarVec} : Kw P (minimizeTranslate cc tc a es) := by
  have hS := hP.toS
  unfold minimizeTranslate; kw_auto
macro_rules | `(tactic| kw_step) => `(tactic| with_reducible exact kt_minimizeTranslate (by assumption))
theorem kt_domainVars {es : CoVarVec} : ∀ {s : IntervalSet}, Kw P (domainVars es s) := by
  induction es with
  | nil => intro s; unfold domainVars; kw_auto
  | cons e es ih => intro s; obtain ⟨a, b⟩ := e; unfold domainVars; kw_auto; exact ih
theorem kt_termDomain {es : CoVarVec} {l : Int} : Kw P (termDomain es l) := kt_domainVars
macro_rules | `(tactic| kw_step) => `(tactic| with_reducible exact kt_termDomain)
theorem kt_termDomains : ∀ {es : List (CoVarVec × Int)} {as : List (Int × Int)}, Kw P (termDomains es as) := by
  intro es
  induction es with
  | nil => intro as; unfold termDomains; kw_auto
  | cons e es ih => intro as; cases as <;> unfold termDomains <;> kw_auto; exact ih
macro_rules | `(tactic| kw_step) => `(tactic| with_reducible exact kt_termDomains)
theorem kt_equalLit (hP : PrimS cc A P) {e : DiffElem} {x : Int} : Kw P (equalLit cc e x) := by unfold equalLit; kw_auto
macro_rules | `(tactic| kw_step) => `(tactic| with_reducible exact kt_equalLit (by assumption))
theorem kt_valueLits (hP : PrimS cc A P) {x : Int} : ∀ {ds : List IntervalSet} {es : List DiffElem}, Kw P (valueLits cc x ds es) := by
  intro ds
  induction ds with
  | nil => intro es; unfold valueLits; kw_auto
  | cons d ds ih => intro es; cases es <;> unfold valueLits <;> kw_auto <;> exact ih
macro_rules | `(tactic| kw_step) => `(tactic| with_reducible exact kt_valueLits (by assumption))
theorem kt_valueConstraints (hP : PrimS cc A P) {l : Int} {ds : List IntervalSet} {es : List DiffElem} {m : List (Int × Nat)} : Kw P (valueConstraints cc l ds es m) := by
  induction m with
  | nil => unfold valueConstraints; kw_auto
  | cons p m ih => obtain ⟨a, b⟩ := p; unfold valueConstraints; kw_auto
macro_rules | `(tactic| kw_step) => `(tactic| with_reducible exact kt_valueConstraints (by assumption))
theorem kt_termRep (hP : PrimS cc A P) {e : CoVarVec × Int} {a : Int × Int} (ha : A a.1 a.2) : Kw P (termRep tc e a) := by unfold termRep; kw_auto
theorem kt_termVars (hP : PrimS cc A P) {m : List (Int × Nat)} : ∀ {es : List (CoVarVec × Int)} {as : List (Int × Int)} {ds : List IntervalSet},
    (∀ (i : Nat) (e : CoVarVec × Int) (a : Int × Int), es[i]? = some e → as[i]? = some a → A a.1 a.2) → Kw P (termVars tc m es as ds) := by
  intro es
  induction es with
  | nil => intro as ds _; unfold termVars; kw_auto
  | cons e es ih =>
    intro as ds ha
    cases as with
    | nil => unfold termVars; kw_auto
    | cons a as =>
      have h0 := kt_termRep (tc := tc) hP (e := e) (ha 0 e a rfl rfl)
      have ih : ∀ {ds}, Kw P (termVars tc m es as ds) := ih fun i e a h1 h2 => ha (i + 1) e a h1 h2
      cases ds with
      | nil => unfold termVars; kw_auto
      | cons d ds => unfold termVars; kw_auto <;> exact ih
theorem kt_distinctTranslate (hP : PrimS cc A P) {c : CState} {l : Int} {es : List (CoVarVec × Int)} (ha : ∀ (i : Nat) (e : CoVarVec × Int) (a : Int × Int), es[i]? = some e → c.assigned[i]? = some a → A a.1 a.2) :
    Kw P (distinctTranslate cc tc c l es) := by
  have h1 : ∀ {m : List (Int × Nat)} {ds}, Kw P (termVars tc m es c.assigned ds) := kt_termVars hP ha
  unfold distinctTranslate; kw_auto; exact h1
/-- Translation of a constraint, where the terms of distinct constraints are within the given bounds. -/
theorem kt_translateOne' (hP : PrimT cc A P) {k n : Nat} {r : (Bool × Bool) × List Constr} (hx : translateOne cc tc k n W = .ok (r, W')) (hp : P W)
    (ha : ∀ c l es, W.book.cs[n]? = some c → c.alive = true → c.con = .distinct l es → ∀ (i : Nat) (e : CoVarVec × Int) (a : Int × Int), es[i]? = some e → c.assigned[i]? = some a → A a.1 a.2) : P W' := by
  have hS := hP.toS
  unfold translateOne at hx
  obtain ⟨c, W1, h1, h2⟩ := bind_iff.mp hx
  obtain ⟨⟨h3, h4⟩, rfl⟩ := getCS_iff.mp h1
  have key : Kw P (match c.con with
    | .sum lit rhs es => do
      let r ← sumTranslate cc tc k c lit rhs es
      return (r, [])
    | .minimize adjust es => do
      let r ← minimizeTranslate cc tc adjust es
      return (r, [])
    | .distinct lit es => distinctTranslate cc tc c lit es
    | .disjoint _ _ => return ((true, false), [])
    | .nonlinear _ _ _ _ _ _ _ => return ((true, false), [])) := by
    cases hk : c.con with
    | distinct l es => exact kt_distinctTranslate hS (ha c l es h3 h4 hk)
    | _ => dsimp only; kw_auto
  exact key.kw _ _ _ h2 hp
theorem kt_translateOne (hP : PrimT cc (fun _ _ => True) P) {k n : Nat} : Kw P (translateOne cc tc k n) :=
  ⟨fun _ _ _ hx hp => kt_translateOne' hP hx hp fun _ _ _ _ _ _ _ _ _ _ _ => trivial⟩
theorem kt_orderClauses (hP : PrimS cc A P) : ∀ {ls : List Int} {p : Int}, Kw P (orderClauses cc p ls) := by
  intro ls
  induction ls with
  | nil => intro p; unfold orderClauses; kw_auto
  | cons l ls ih => intro p; unfold orderClauses; kw_auto <;> exact ih
macro_rules | `(tactic| kw_step) => `(tactic| with_reducible exact kt_orderClauses (by assumption))
theorem kt_allOrderClauses (hP : PrimS cc A P) {vss : List VarState} : Kw P (allOrderClauses cc vss) := by
  induction vss with
  | nil => unfold allOrderClauses; kw_auto
  | cons vs vss ih => unfold allOrderClauses; kw_auto

/-! ### Adding constraints -/

/-- Adding a constraint only changes the bookkeeping. -/
theorem addConstraint_eff {c : Constr} {n : Nat} (h : addConstraint c W = .ok (n, W')) : ∃ b, W' = { W with book := b } := by
  unfold addConstraint at h
  obtain ⟨st, Wa, h1, h2⟩ := bind_iff.mp h
  obtain ⟨rfl, -⟩ := initState_eff h1
  simp only [smok] at h2
  obtain ⟨W2, W3, ⟨rfl, rfl⟩, _, W4, rfl, _, W5, h5, _, W6, rfl, rfl, rfl⟩ := h2
  have := addVarWatches_eff h5
  exact ⟨_, by rw [this.1]⟩

theorem kw_add (hP : ∀ W b, P W → P { W with book := b }) {t : TCon} : Kw P t.add := by
  refine ⟨fun W n W' h hp => ?_⟩
  cases t with
  | old m => obtain ⟨-, rfl⟩ := pure_iff.mp h; exact hp
  | new c => obtain ⟨b, rfl⟩ := addConstraint_eff h; exact hP _ _ hp

end Clingcon
