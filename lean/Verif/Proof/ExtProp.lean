import Verif.Proof.Attach
import Verif.Model.Check

/-! The log is extended by the functions propagating constraints. -/
set_option linter.unusedSimpArgs false
namespace Clingcon

variable {m : Bool}

@[smok] theorem getCS_iff {n : Nat} {c : CState} {W W' : World} :
    getCS n W = .ok (c, W') ↔ (W.book.cs[n]? = some c ∧ c.alive = true) ∧ W' = W := by
  unfold getCS
  cases h : W.book.cs[n]? with
  | none => simp
  | some x =>
    dsimp only
    split_ifs with ha
    · simp only [Except.ok.injEq, Prod.mk.injEq, Option.some.injEq]
      constructor
      · rintro ⟨rfl, rfl⟩; exact ⟨⟨rfl, ha⟩, rfl⟩
      · rintro ⟨⟨rfl, -⟩, rfl⟩; exact ⟨rfl, rfl⟩
    · simp only [reduceCtorEq, Option.some.injEq, false_iff]
      rintro ⟨⟨rfl, h2⟩, -⟩; exact ha h2
@[smok] theorem setCS_iff {n : Nat} {c : CState} {u : Unit} {W W' : World} :
    setCS n c W = .ok (u, W') ↔ W' = { W with book.cs := W.book.cs.set n c } := okU_iff
@[smok] theorem addVolatile_iff {cc : CC} {c : List Int} {b : Bool} {W W' : World} :
    addVolatile cc c W = .ok (b, W') ↔ b = cc.accept (.volatile c :: W.log) ∧ W' = { W with log := .volatile c :: W.log } := ok_iff

theorem ext_getCS {n : Nat} : Ext' m (getCS n) := by
  refine ⟨fun W b W' h => ?_⟩
  rw [(getCS_iff.mp h).2]; exact Grow.refl _ _
theorem ext_setCS {n : Nat} {c : CState} : Ext' m (setCS n c) := by
  refine ⟨fun W b W' h => ?_⟩
  rw [setCS_iff.mp h]; exact Grow.same rfl rfl
theorem ext_addVolatile {cc : CC} {c : List Int} : Ext' m (addVolatile cc c) := by
  refine ⟨fun W b W' h => ?_⟩
  rw [(addVolatile_iff.mp h).2]; exact Grow.ev rfl rfl
macro_rules | `(tactic| ext_step) => `(tactic| with_reducible exact ext_getCS)
macro_rules | `(tactic| ext_step) => `(tactic| with_reducible exact ext_setCS)
macro_rules | `(tactic| ext_step) => `(tactic| with_reducible exact ext_addVolatile)

theorem ext_sumBounds {es : List (Int × Nat)} : Ext' m (sumBounds es) := by
  induction es with
  | nil => exact Ext'.pure
  | cons e es ih => obtain ⟨a, b⟩ := e; unfold sumBounds; ext_auto
macro_rules | `(tactic| ext_step) => `(tactic| with_reducible exact ext_sumBounds)

theorem ext_markInactiveS {n : Nat} : Ext' m (markInactiveS n) := by unfold markInactiveS; ext_auto
theorem ext_addClauseT {cc : CC} {b : Bool} {c : List Int} : Ext' m (addClauseT cc b c) := by unfold addClauseT; ext_auto
theorem ext_pushReason {cc : CC} {r : List Int} {l : Int} : Ext' m (pushReason cc r l) := by unfold pushReason; ext_auto
macro_rules | `(tactic| ext_step) => `(tactic| with_reducible exact ext_markInactiveS)
macro_rules | `(tactic| ext_step) => `(tactic| with_reducible exact ext_addClauseT)
macro_rules | `(tactic| ext_step) => `(tactic| with_reducible exact ext_pushReason)

theorem ext_refineLower {cc : CC} {v : Nat} {a b c d e : Int} : Ext' m (refineLower cc v a b c d e) := by unfold refineLower; ext_auto
theorem ext_introduceLower {cc : CC} {v : Nat} {a b : Int} {p : Bool × Int × Int × Int} : Ext' m (introduceLower cc v a b p) := by
  unfold introduceLower; ext_auto
theorem ext_refineUpper {cc : CC} {v : Nat} {a b c d e : Int} : Ext' m (refineUpper cc v a b c d e) := by unfold refineUpper; ext_auto
theorem ext_introduceUpper {cc : CC} {v : Nat} {a b : Int} {p : Bool × Int × Int × Int} : Ext' m (introduceUpper cc v a b p) := by
  unfold introduceUpper; ext_auto
macro_rules | `(tactic| ext_step) => `(tactic| with_reducible exact ext_refineLower)
macro_rules | `(tactic| ext_step) => `(tactic| with_reducible exact ext_introduceLower)
macro_rules | `(tactic| ext_step) => `(tactic| with_reducible exact ext_refineUpper)
macro_rules | `(tactic| ext_step) => `(tactic| with_reducible exact ext_introduceUpper)
theorem ext_reasonLower {cc : CC} {v : Nat} {a b : Int} : Ext' m (reasonLower cc v a b) := by unfold reasonLower; ext_auto
theorem ext_reasonUpper {cc : CC} {v : Nat} {a b : Int} : Ext' m (reasonUpper cc v a b) := by unfold reasonUpper; ext_auto
macro_rules | `(tactic| ext_step) => `(tactic| with_reducible exact ext_reasonLower)
macro_rules | `(tactic| ext_step) => `(tactic| with_reducible exact ext_reasonUpper)
theorem ext_calculateReason {cc : CC} {v : Nat} {a b : Int} : Ext' m (calculateReason cc v a b) := by unfold calculateReason; ext_auto
macro_rules | `(tactic| ext_step) => `(tactic| with_reducible exact ext_calculateReason)
theorem ext_sumReason {cc : CC} {s : Option Nat} {es : List (Int × Nat)} : ∀ {a : Int} {r : List Int}, Ext' m (sumReason cc s es a r) := by
  induction es with
  | nil => intro a r; exact Ext'.pure
  | cons e es ih => intro a r; obtain ⟨x, y⟩ := e; unfold sumReason; ext_auto <;> exact ih
macro_rules | `(tactic| ext_step) => `(tactic| with_reducible exact ext_sumReason)
theorem ext_hasOrder {cc : CC} {v : Nat} {a : Int} {b : Bool} : Ext' m (hasOrder cc v a b) := by unfold hasOrder; ext_auto
theorem ext_needReason {cc : CC} {a : Option Int} : Ext' m (needReason cc a) := by cases a <;> unfold needReason <;> ext_auto
macro_rules | `(tactic| ext_step) => `(tactic| with_reducible exact ext_hasOrder)
macro_rules | `(tactic| ext_step) => `(tactic| with_reducible exact ext_needReason)
theorem ext_sumDerive {cc : CC} {t : Bool} {c : Int} {es : List (Int × Nat)} {v : Nat} {a b : Int} {n : Bool} :
    Ext' m (sumDerive cc t c es v a b n) := by unfold sumDerive; ext_auto
macro_rules | `(tactic| ext_step) => `(tactic| with_reducible exact ext_sumDerive)
theorem ext_sumConsequence {cc : CC} {t : Bool} {c : Int} {es : List (Int × Nat)} {v : Nat} {a b : Int} {n : Bool} :
    Ext' m (sumConsequence cc t c es v a b n) := by unfold sumConsequence; ext_auto
macro_rules | `(tactic| ext_step) => `(tactic| with_reducible exact ext_sumConsequence)
theorem ext_sumStep {cc : CC} {t : Bool} {c : Int} {es : List (Int × Nat)} {v : Nat} {a b : Int} :
    Ext' m (sumStep cc t c es a b v) := by unfold sumStep; ext_auto
macro_rules | `(tactic| ext_step) => `(tactic| with_reducible exact ext_sumStep)
theorem ext_sumLoop {cc : CC} {t : Bool} {c : Int} {es : List (Int × Nat)} {a : Int} {es' : List (Int × Nat)} :
    Ext' m (sumLoop cc t c es a es') := by
  induction es' with
  | nil => exact Ext'.pure
  | cons e es' ih => obtain ⟨x, y⟩ := e; unfold sumLoop; ext_auto
macro_rules | `(tactic| ext_step) => `(tactic| with_reducible exact ext_sumLoop)
theorem ext_sumCheckState {c : CState} {es : List (Int × Nat)} : Ext' m (sumCheckState c es) := by unfold sumCheckState; ext_auto
macro_rules | `(tactic| ext_step) => `(tactic| with_reducible exact ext_sumCheckState)
theorem ext_sumPropagate {cc : CC} {n : Nat} {b t : Bool} {c r : Int} {es : List (Int × Nat)} : Ext' m (sumPropagate cc n b t c r es) := by
  unfold sumPropagate; ext_auto
macro_rules | `(tactic| ext_step) => `(tactic| with_reducible exact ext_sumPropagate)

theorem ext_distinctUpdate {es : List (List (Int × Nat) × Int)} {is : List Nat} : ∀ {c : CState}, Ext' m (distinctUpdate es is c) := by
  induction is with
  | nil => intro c; exact Ext'.pure
  | cons i is ih => intro c; unfold distinctUpdate; ext_auto; exact ih
theorem ext_distinctReason {cc : CC} {es : List (Int × Nat)} : ∀ {r : List Int}, Ext' m (distinctReason cc es r) := by
  induction es with
  | nil => intro c; exact Ext'.pure
  | cons i is ih => intro c; obtain ⟨x, y⟩ := i; unfold distinctReason; ext_auto
theorem ext_distinctStep {cc : CC} {u f : Bool} {v : Nat} {r : List Int} : Ext' m (distinctStep cc u f v r) := by
  unfold distinctStep; ext_auto
macro_rules | `(tactic| ext_step) => `(tactic| with_reducible exact ext_distinctUpdate)
macro_rules | `(tactic| ext_step) => `(tactic| with_reducible exact ext_distinctReason)
macro_rules | `(tactic| ext_step) => `(tactic| with_reducible exact ext_distinctStep)
theorem ext_distinctConsequence {cc : CC} {s : Int} {f : Bool} {es : List (Int × Nat)} : ∀ {r : List Int}, Ext' m (distinctConsequence cc s f es r) := by
  induction es with
  | nil => intro c; exact Ext'.pure
  | cons i is ih => intro c; obtain ⟨x, y⟩ := i; unfold distinctConsequence; ext_auto; exact ih
macro_rules | `(tactic| ext_step) => `(tactic| with_reducible exact ext_distinctConsequence)
theorem ext_distinctPair {cc : CC} {c s : Int} {es : List (List (Int × Nat) × Int)} {i j : Nat} : Ext' m (distinctPair cc c es s i j) := by
  unfold distinctPair; ext_auto
macro_rules | `(tactic| ext_step) => `(tactic| with_reducible exact ext_distinctPair)
theorem ext_distinctPairs {cc : CC} {c s : Int} {es : List (List (Int × Nat) × Int)} {i : Nat} {js : List Nat} :
    Ext' m (distinctPairs cc c es s i js) := by
  induction js with
  | nil => exact Ext'.pure
  | cons j js ih => unfold distinctPairs; ext_auto
macro_rules | `(tactic| ext_step) => `(tactic| with_reducible exact ext_distinctPairs)
theorem ext_distinctAssigned {cc : CC} {k : CState} {c v : Int} {es : List (List (Int × Nat) × Int)} {i : Nat} :
    Ext' m (distinctAssigned cc k c es v i) := by unfold distinctAssigned; ext_auto
macro_rules | `(tactic| ext_step) => `(tactic| with_reducible exact ext_distinctAssigned)
theorem ext_distinctTodo {cc : CC} {k : CState} {c s : Int} {es : List (List (Int × Nat) × Int)} {is : List Nat} :
    Ext' m (distinctTodo cc k c es s is) := by
  induction is with
  | nil => exact Ext'.pure
  | cons j js ih => unfold distinctTodo; ext_auto
macro_rules | `(tactic| ext_step) => `(tactic| with_reducible exact ext_distinctTodo)
theorem ext_distinctPropagate {cc : CC} {n : Nat} {c : Int} {es : List (List (Int × Nat) × Int)} : Ext' m (distinctPropagate cc n c es) := by
  unfold distinctPropagate; ext_auto
macro_rules | `(tactic| ext_step) => `(tactic| with_reducible exact ext_distinctPropagate)

theorem ext_productReason {cc : CC} {x y : Nat} : Ext' m (productReason cc x y) := by unfold productReason; ext_auto
theorem ext_linearReason {cc : CC} {x : Int} {y : Nat} : Ext' m (linearReason cc x y) := by unfold linearReason; ext_auto
theorem ext_linearBound {x : Int} {y : Nat} : Ext' m (linearBound x y) := by unfold linearBound; ext_auto
macro_rules | `(tactic| ext_step) => `(tactic| with_reducible exact ext_productReason)
macro_rules | `(tactic| ext_step) => `(tactic| with_reducible exact ext_linearReason)
macro_rules | `(tactic| ext_step) => `(tactic| with_reducible exact ext_linearBound)
theorem ext_nonlinearZ {cc : CC} {x y z : Nat} {a b c : Int} : Ext' m (nonlinearZ cc x y a z b c) := by unfold nonlinearZ; ext_auto
macro_rules | `(tactic| ext_step) => `(tactic| with_reducible exact ext_nonlinearZ)
theorem ext_nonlinearPropagate {cc : CC} {n x y z : Nat} {a b c : Int} : Ext' m (nonlinearPropagate cc n a x y b z c) := by
  unfold nonlinearPropagate; ext_auto
macro_rules | `(tactic| ext_step) => `(tactic| with_reducible exact ext_nonlinearPropagate)

theorem ext_disjointBound {cc : CC} {t : Bool} {r : List Int} {i : DInterval} {b : Int} : Ext' m (disjointBound cc t r i b) := by
  unfold disjointBound; ext_auto
macro_rules | `(tactic| ext_step) => `(tactic| with_reducible exact ext_disjointBound)
theorem ext_disjointReasons {cc : CC} {t : Bool} {a : Int} {is : List DInterval} : ∀ {r : List Int}, Ext' m (disjointReasons cc t a is r) := by
  induction is with
  | nil => intro r; exact Ext'.pure
  | cons i is ih => intro r; unfold disjointReasons; ext_auto <;> exact ih
macro_rules | `(tactic| ext_step) => `(tactic| with_reducible exact ext_disjointReasons)
theorem ext_disjointReason {cc : CC} {t : Bool} {c a : Int} {is : List DInterval} : Ext' m (disjointReason cc t c a is) := by
  unfold disjointReason; ext_auto
macro_rules | `(tactic| ext_step) => `(tactic| with_reducible exact ext_disjointReason)
theorem ext_hallLoop {cc : CC} {t : Bool} {a b : Int} {r : List Int} {is : List DInterval} : Ext' m (hallLoop cc t a b r is) := by
  induction is with
  | nil => exact Ext'.pure
  | cons i is ih => unfold hallLoop; ext_auto
macro_rules | `(tactic| ext_step) => `(tactic| with_reducible exact ext_hallLoop)
theorem ext_disjointHall {cc : CC} {t : Bool} {c a b : Int} {is js : List DInterval} : Ext' m (disjointHall cc t c a b is js) := by
  unfold disjointHall; ext_auto
macro_rules | `(tactic| ext_step) => `(tactic| with_reducible exact ext_disjointHall)
theorem ext_disjointInsert {cc : CC} {t : Bool} {c : Int} {is js : List DInterval} {i : DInterval} :
    Ext' m (disjointInsert cc t c is i js) := by unfold disjointInsert; ext_auto
macro_rules | `(tactic| ext_step) => `(tactic| with_reducible exact ext_disjointInsert)
theorem ext_disjointGroup {cc : CC} {t : Bool} {c : Int} {n : Nat} : ∀ {is js : List DInterval}, Ext' m (disjointGroup cc t c n is js) := by
  induction n with
  | zero => intro is js; exact Ext'.pure
  | succ n ih =>
    intro is js
    cases js with
    | nil => exact Ext'.pure
    | cons j js => unfold disjointGroup; ext_auto; exact ih
macro_rules | `(tactic| ext_step) => `(tactic| with_reducible exact ext_disjointGroup)
theorem ext_disjointRunGroups {cc : CC} {t : Bool} {c : Int} {f : Bool} {gs : List (List DInterval)} :
    ∀ {ds : List DInterval}, Ext' m (disjointRunGroups cc t c f gs ds) := by
  induction gs with
  | nil => intro ds; exact Ext'.pure
  | cons g gs ih => intro ds; unfold disjointRunGroups; ext_auto <;> exact ih
macro_rules | `(tactic| ext_step) => `(tactic| with_reducible exact ext_disjointRunGroups)
theorem ext_disjointRun {cc : CC} {t : Bool} {c : Int} {f : Bool} {is : List DInterval} : Ext' m (disjointRun cc t c f is) := by
  unfold disjointRun; ext_auto
theorem ext_disjointLoad {is : List DInterval} : Ext' m (disjointLoad is) := by
  induction is with
  | nil => exact Ext'.pure
  | cons i is ih => unfold disjointLoad; ext_auto
macro_rules | `(tactic| ext_step) => `(tactic| with_reducible exact ext_disjointRun)
macro_rules | `(tactic| ext_step) => `(tactic| with_reducible exact ext_disjointLoad)
theorem ext_disjointPropagate {cc : CC} {n : Nat} {c : Int} : Ext' m (disjointPropagate cc n c) := by
  unfold disjointPropagate; ext_auto
macro_rules | `(tactic| ext_step) => `(tactic| with_reducible exact ext_disjointPropagate)
theorem ext_propagateCS {cc : CC} {n : Nat} {b : Bool} : Ext' m (propagateCS cc b n) := by
  unfold propagateCS; ext_auto
macro_rules | `(tactic| ext_step) => `(tactic| with_reducible exact ext_propagateCS)

end Clingcon
