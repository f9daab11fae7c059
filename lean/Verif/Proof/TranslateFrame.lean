import Verif.Proof.TranslateMinimize
import Verif.Proof.Keep

/-! Translating a constraint changes no constraint state. -/
namespace Clingcon
open Spec VarState

variable {cc : CC} {tc : TConf}

theorem Reads.fr {α : Type} {x : SM α} (h : Reads x) : Fr x := Fr.same h.reads

theorem fr_addWeight {l b t : Int} {ws : List (Int × Int)} : Fr (addWeight cc l ws b t) := by unfold addWeight; fr_auto
macro_rules | `(tactic| fr_step) => `(tactic| with_reducible exact fr_addWeight)
theorem fr_addMinimize {l b : Int} : Fr (addMinimize l b) := by unfold addMinimize; fr_auto
macro_rules | `(tactic| fr_step) => `(tactic| with_reducible exact fr_addMinimize)
theorem fr_litRange {v : Nat} : ∀ {n : Nat} {i : Int}, Fr (litRange cc v n i) := by
  intro n
  induction n with
  | zero => intro i; unfold litRange; fr_auto
  | succ n ih => intro i; unfold litRange; fr_auto; exact ih
macro_rules | `(tactic| fr_step) => `(tactic| with_reducible exact fr_litRange)
theorem fr_weightLits {s : Int} {es : CoVarVec} : Fr (weightLits cc s es) := by
  induction es with
  | nil => unfold weightLits; fr_auto
  | cons e es ih => obtain ⟨a, b⟩ := e; unfold weightLits; fr_auto
macro_rules | `(tactic| fr_step) => `(tactic| with_reducible exact fr_weightLits)
theorem fr_weightTranslate {l s : Int} {es : CoVarVec} : Fr (weightTranslate cc l s es) := by unfold weightTranslate; fr_auto
macro_rules | `(tactic| fr_step) => `(tactic| with_reducible exact fr_weightTranslate)
theorem fr_ratioParts {s : Int} {es : CoVarVec} : Fr (ratioParts s es) := Reads.fr reads_ratioParts
macro_rules | `(tactic| fr_step) => `(tactic| with_reducible exact fr_ratioParts)
theorem fr_clauseEstimate {k : Nat} {es : CoVarVec} {a b m : Int} : Fr (clauseEstimate k es a b m) := Reads.fr reads_clauseEstimate
macro_rules | `(tactic| fr_step) => `(tactic| with_reducible exact fr_clauseEstimate)
theorem fr_clauseTake {es : CoVarVec} {l : Int} {f : CFrame} {fs : List CFrame} : Fr (clauseTake cc es l f fs) := by unfold clauseTake; fr_auto
macro_rules | `(tactic| fr_step) => `(tactic| with_reducible exact fr_clauseTake)
theorem fr_clausePut {c : List Int} {j : Nat} {l : Int} : Fr (clausePut c j l) := by unfold clausePut; fr_auto
macro_rules | `(tactic| fr_step) => `(tactic| with_reducible exact fr_clausePut)
theorem fr_clauseStep {es : CoVarVec} {l : Int} {b : Bool} {f : CFrame} {fs : List CFrame} {c : List Int} : Fr (clauseStep cc es l b f fs c) := by
  unfold clauseStep; fr_auto
macro_rules | `(tactic| fr_step) => `(tactic| with_reducible exact fr_clauseStep)
theorem fr_clauseLoop {es : CoVarVec} {l : Int} {b : Bool} : ∀ {k : Nat} {fs : List CFrame} {c : List Int}, Fr (clauseLoop cc es l b k fs c) := by
  intro k
  induction k with
  | zero => intro fs c; cases fs <;> unfold clauseLoop <;> fr_auto
  | succ k ih =>
    intro fs c
    cases fs with
    | nil => unfold clauseLoop; fr_auto
    | cons f fs => unfold clauseLoop; fr_auto; exact ih
macro_rules | `(tactic| fr_step) => `(tactic| with_reducible exact fr_clauseLoop)
theorem fr_clauseTranslate {k : Nat} {l a b : Int} {es : CoVarVec} {o : Bool} : Fr (clauseTranslate cc k l es a b o) := by unfold clauseTranslate; fr_auto
macro_rules | `(tactic| fr_step) => `(tactic| with_reducible exact fr_clauseTranslate)
theorem fr_sumTranslate {k : Nat} {c : CState} {l r : Int} {es : CoVarVec} : Fr (sumTranslate cc tc k c l r es) := by unfold sumTranslate; fr_auto
macro_rules | `(tactic| fr_step) => `(tactic| with_reducible exact fr_sumTranslate)
theorem fr_requiredLiterals {es : CoVarVec} : Fr (requiredLiterals es) := by
  induction es with
  | nil => unfold requiredLiterals; fr_auto
  | cons e es ih => obtain ⟨a, b⟩ := e; unfold requiredLiterals; fr_auto
macro_rules | `(tactic| fr_step) => `(tactic| with_reducible exact fr_requiredLiterals)
theorem fr_minimizeValues {co : Int} {v : Nat} : ∀ {n : Nat} {i : Int}, Fr (minimizeValues cc co v n i) := by
  intro n
  induction n with
  | zero => intro i; unfold minimizeValues; fr_auto
  | succ n ih => intro i; unfold minimizeValues; fr_auto; exact ih
macro_rules | `(tactic| fr_step) => `(tactic| with_reducible exact fr_minimizeValues)
theorem fr_minimizeElems {es : CoVarVec} : Fr (minimizeElems cc es) := by
  induction es with
  | nil => unfold minimizeElems; fr_auto
  | cons e es ih => obtain ⟨a, b⟩ := e; unfold minimizeElems; fr_auto
macro_rules | `(tactic| fr_step) => `(tactic| with_reducible exact fr_minimizeElems)
theorem fr_domainVars {es : CoVarVec} : ∀ {s : IntervalSet}, Fr (domainVars es s) := by
  induction es with
  | nil => intro s; unfold domainVars; fr_auto
  | cons e es ih => intro s; obtain ⟨a, b⟩ := e; unfold domainVars; fr_auto; exact ih
theorem fr_termDomain {es : CoVarVec} {l : Int} : Fr (termDomain es l) := fr_domainVars
macro_rules | `(tactic| fr_step) => `(tactic| with_reducible exact fr_termDomain)
theorem fr_termDomains : ∀ {es : List (CoVarVec × Int)} {as : List (Int × Int)}, Fr (termDomains es as) := by
  intro es
  induction es with
  | nil => intro as; unfold termDomains; fr_auto
  | cons e es ih => intro as; cases as <;> unfold termDomains <;> fr_auto; exact ih
macro_rules | `(tactic| fr_step) => `(tactic| with_reducible exact fr_termDomains)
theorem fr_equalLit {e : DiffElem} {x : Int} : Fr (equalLit cc e x) := by unfold equalLit; fr_auto
macro_rules | `(tactic| fr_step) => `(tactic| with_reducible exact fr_equalLit)
theorem fr_valueLits {x : Int} : ∀ {ds : List IntervalSet} {es : List DiffElem}, Fr (valueLits cc x ds es) := by
  intro ds
  induction ds with
  | nil => intro es; unfold valueLits; fr_auto
  | cons d ds ih => intro es; cases es <;> unfold valueLits <;> fr_auto <;> exact ih
macro_rules | `(tactic| fr_step) => `(tactic| with_reducible exact fr_valueLits)
theorem fr_valueConstraints {l : Int} {ds : List IntervalSet} {es : List DiffElem} {m : List (Int × Nat)} : Fr (valueConstraints cc l ds es m) := by
  induction m with
  | nil => unfold valueConstraints; fr_auto
  | cons p m ih => obtain ⟨a, b⟩ := p; unfold valueConstraints; fr_auto
macro_rules | `(tactic| fr_step) => `(tactic| with_reducible exact fr_valueConstraints)

/-- The constraint states are the given ones. -/
def CsIs (cs : List CState) (F : List VarState × Book) : Prop := F.2.cs = cs
/-- Queues, levels and so on. -/
theorem keep_addVar {cs : List CState} {a b : Int} : Keep (CsIs cs) (addVar a b) :=
  ⟨fun W x W' h hp => by injection h with h; injection h with _ h; subst h; exact hp⟩
macro_rules | `(tactic| keep_step) => `(tactic| with_reducible exact keep_addVar)
theorem keep_termRep {cs : List CState} {e : CoVarVec × Int} {a : Int × Int} : Keep (CsIs cs) (termRep tc e a) := by
  unfold termRep; keep_auto
macro_rules | `(tactic| keep_step) => `(tactic| with_reducible exact keep_termRep)
theorem keep_termVars {cs : List CState} {m : List (Int × Nat)} : ∀ {es : List (CoVarVec × Int)} {as : List (Int × Int)} {ds : List IntervalSet},
    Keep (CsIs cs) (termVars tc m es as ds) := by
  intro es
  induction es with
  | nil => intro as ds; unfold termVars; keep_auto
  | cons e es ih =>
    intro as ds
    cases as with
    | nil => unfold termVars; keep_auto
    | cons a as =>
      cases ds with
      | nil => unfold termVars; keep_auto
      | cons d ds => unfold termVars; keep_auto <;> exact ih
macro_rules | `(tactic| keep_step) => `(tactic| with_reducible exact keep_termVars)
theorem keep_distinctTranslate {cs : List CState} {c : CState} {l : Int} {es : List (CoVarVec × Int)} : Keep (CsIs cs) (distinctTranslate cc tc c l es) := by
  unfold distinctTranslate; keep_auto
macro_rules | `(tactic| keep_step) => `(tactic| with_reducible exact keep_distinctTranslate)
theorem keep_flag {cs : List CState} {b : Bool} : Keep (CsIs cs) (modify (fun W => { W with book.translateMinimize := b }) : SM Unit) :=
  ⟨fun W x W' h hp => by rw [modify_iff.mp h]; exact hp⟩
macro_rules | `(tactic| keep_step) => `(tactic| with_reducible exact keep_flag)
theorem keep_minimizeTranslate {cs : List CState} {a : Int} {es : CoVarVec} : Keep (CsIs cs) (minimizeTranslate cc tc a es) := by
  unfold minimizeTranslate; keep_auto
macro_rules | `(tactic| keep_step) => `(tactic| with_reducible exact keep_minimizeTranslate)
theorem keep_translateOne {cs : List CState} {k n : Nat} : Keep (CsIs cs) (translateOne cc tc k n) := by
  unfold translateOne; keep_auto

theorem fr_orderClauses : ∀ {ls : List Int} {p : Int}, Fr (orderClauses cc p ls) := by
  intro ls
  induction ls with
  | nil => intro p; unfold orderClauses; fr_auto
  | cons l ls ih => intro p; unfold orderClauses; fr_auto <;> exact ih
macro_rules | `(tactic| fr_step) => `(tactic| with_reducible exact fr_orderClauses)
theorem fr_allOrderClauses {vss : List VarState} : Fr (allOrderClauses cc vss) := by
  induction vss with
  | nil => unfold allOrderClauses; fr_auto
  | cons vs vss ih => unfold allOrderClauses; fr_auto

end Clingcon
