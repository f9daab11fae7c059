import Verif.Proof.Hoare
import Verif.Proof.SimpAttr

/-! Effects of successful computations of the solver on the state. -/
set_option linter.unusedSimpArgs false

namespace Clingcon
open Spec

variable {α γ : Type} {W W' : World}

@[smok] theorem bind_iff {x : SM α} {f : α → SM γ} {r : γ × World} :
    (x >>= f) W = .ok r ↔ ∃ a W1, x W = .ok (a, W1) ∧ f a W1 = .ok r := by
  constructor
  · exact SM.bind_ok
  · rintro ⟨a, W1, h1, h2⟩
    change Except.bind (x W) (fun p => f p.1 p.2) = .ok r
    rw [h1]; exact h2

@[smok] theorem pure_iff {a b : α} : (Pure.pure a : SM α) W = .ok (b, W') ↔ b = a ∧ W' = W := by
  constructor
  · intro h; injection h with h; injection h with h1 h2; exact ⟨h1.symm, h2.symm⟩
  · rintro ⟨rfl, rfl⟩; rfl

theorem ok_iff {a b : α} : (Except.ok (a, W) : Except Err (α × World)) = .ok (b, W') ↔ b = a ∧ W' = W := by
  constructor
  · intro h; injection h with h; injection h with h1 h2; exact ⟨h1.symm, h2.symm⟩
  · rintro ⟨rfl, rfl⟩; rfl

theorem okU_iff {u : Unit} {W1 : World} : (Except.ok ((), W1) : Except Err (Unit × World)) = .ok (u, W') ↔ W' = W1 := by
  constructor
  · intro h; injection h with h; injection h with h1 h2; exact h2.symm
  · rintro rfl; rfl

@[smok] theorem ub_iff {r : α × World} : (SM.ub : SM α) W = .ok r ↔ False := by
  constructor
  · intro h; cases h
  · exact False.elim

@[smok] theorem throw_iff {e : Err} {r : α × World} : (throw e : SM α) W = .ok r ↔ False := by
  constructor
  · intro h; cases h
  · exact False.elim

@[smok] theorem ite_iff {c : Prop} [Decidable c] {x y : SM α} {r : α × World} :
    (if c then x else y) W = .ok r ↔ (c ∧ x W = .ok r) ∨ (¬ c ∧ y W = .ok r) := by
  by_cases h : c
  · rw [if_pos h]; simp [h]
  · rw [if_neg h]; simp [h]

@[smok] theorem whenS_iff {b : Bool} {x : SM Unit} {u : Unit} :
    whenS b x W = .ok (u, W') ↔ (b = true ∧ x W = .ok ((), W')) ∨ (b = false ∧ W' = W) := by
  unfold whenS
  rw [ite_iff, pure_iff]
  simp

@[smok] theorem assertS_iff {b : Bool} {u : Unit} : assertS b W = .ok (u, W') ↔ b = true ∧ W' = W := by
  unfold assertS
  rw [ite_iff, pure_iff, ub_iff]
  simp

@[smok] theorem liftRes_iff {r : Res α} {a : α} : liftRes r W = .ok (a, W') ↔ r = .ok a ∧ W' = W := by
  unfold liftRes
  cases r with
  | error e => simp
  | ok b => simp [eq_comm]

@[smok] theorem modify_iff {f : World → World} {u : Unit} : (modify f : SM Unit) W = .ok (u, W') ↔ W' = f W := by
  constructor
  · intro h; injection h with h; injection h with h1 h2; exact h2.symm
  · rintro rfl; rfl

@[smok] theorem get_iff {a : World} : (get : SM World) W = .ok (a, W') ↔ a = W ∧ W' = W := by
  constructor
  · intro h; injection h with h; injection h with h1 h2; exact ⟨h1.symm, h2.symm⟩
  · rintro ⟨rfl, rfl⟩; rfl

@[smok] theorem discard_iff {x : SM α} {u : Unit} : (Functor.discard x : SM Unit) W = .ok (u, W') ↔ ∃ a, x W = .ok (a, W') := by
  have : (Functor.discard x : SM Unit) = (x >>= fun _ => Pure.pure ()) := rfl
  rw [this, bind_iff]
  simp only [pure_iff]
  constructor
  · rintro ⟨a, W1, h, -, rfl⟩; exact ⟨a, h⟩
  · rintro ⟨a, h⟩; exact ⟨a, W', h, by simp⟩

@[smok] theorem getVar_iff {v : Nat} {vs : VarState} : getVar v W = .ok (vs, W') ↔ W.vars[v]? = some vs ∧ W' = W := by
  unfold getVar
  cases h : W.vars[v]? with
  | none => simp
  | some x => simp [eq_comm]

@[smok] theorem curLevel_iff {l : Lvl} : curLevel W = .ok (l, W') ↔ W.book.levels.head? = some l ∧ W' = W := by
  unfold curLevel
  cases h : W.book.levels with
  | nil => simp
  | cons x t => simp [eq_comm]

@[smok] theorem setVar_iff {v : Nat} {vs : VarState} {u : Unit} :
    setVar v vs W = .ok (u, W') ↔ W' = { W with vars := W.vars.set v vs } := okU_iff

@[smok] theorem qTrue_iff {cc : CC} {l : Int} {b : Bool} : qTrue cc l W = .ok (b, W') ↔ b = cc.isTrue W.log l ∧ W' = W := ok_iff
@[smok] theorem qFalse_iff {cc : CC} {l : Int} {b : Bool} : qFalse cc l W = .ok (b, W') ↔ b = cc.isFalse W.log l ∧ W' = W := ok_iff
@[smok] theorem qFixed_iff {cc : CC} {l : Int} {b : Bool} : qFixed cc l W = .ok (b, W') ↔ b = cc.isFixed W.log l ∧ W' = W := ok_iff
@[smok] theorem qValue_iff {cc : CC} {l : Int} {b : Option Bool} : qValue cc l W = .ok (b, W') ↔ b = cc.value W.log l ∧ W' = W := ok_iff
@[smok] theorem qLitLevel_iff {cc : CC} {l : Int} {b : Nat} : qLitLevel cc l W = .ok (b, W') ↔ b = cc.litLevel W.log l ∧ W' = W := ok_iff
@[smok] theorem qLevel_iff {cc : CC} {b : Nat} : qLevel cc W = .ok (b, W') ↔ b = cc.level ∧ W' = W := ok_iff

@[smok] theorem newLit_iff {l : Int} :
    newLit W = .ok (l, W') ↔ l = W.nextLit ∧ W' = { W with nextLit := W.nextLit + 1, log := .lit W.nextLit :: W.log } := by
  constructor
  · intro h; injection h with h; injection h with h1 h2; exact ⟨h1.symm, h2.symm⟩
  · rintro ⟨rfl, rfl⟩; rfl

@[smok] theorem addWatch_iff {l : Int} {u : Unit} : addWatch l W = .ok (u, W') ↔ W' = { W with log := .watch l :: W.log } :=
  okU_iff

@[smok] theorem addClause_iff {cc : CC} {c : List Int} {b : Bool} :
    addClause cc c W = .ok (b, W') ↔ b = cc.accept (.clause c :: W.log) ∧ W' = { W with log := .clause c :: W.log } := by
  constructor
  · intro h; injection h with h; injection h with h1 h2; exact ⟨h1.symm, h2.symm⟩
  · rintro ⟨rfl, rfl⟩; rfl

@[smok] theorem ccPropagate_iff {cc : CC} {b : Bool} :
    ccPropagate cc W = .ok (b, W') ↔ b = cc.accept (.propagate :: W.log) ∧ W' = { W with log := .propagate :: W.log } := by
  constructor
  · intro h; injection h with h; injection h with h1 h2; exact ⟨h1.symm, h2.symm⟩
  · rintro ⟨rfl, rfl⟩; rfl

/-- Entry of a literal. -/
def entryAt (m : List LitmapEntry) (l : Int) : LitmapEntry := if l = 0 then {} else m.getD (mapOffset l) {}

@[smok] theorem litmapAt_iff {l : Int} {e : LitmapEntry} : litmapAt l W = .ok (e, W') ↔ e = entryAt W.litmap l ∧ W' = W := ok_iff

@[smok] theorem setEntry_iff {l : Int} {e : LitmapEntry} {u : Unit} :
    setEntry l e W = .ok (u, W') ↔ W' = { W with litmap := W.litmap.set (mapOffset l) e } := okU_iff

@[smok] theorem unsetEntry_iff {l : Int} {u : Unit} :
    unsetEntry l W = .ok (u, W') ↔
      W' = { W with litmap := W.litmap.set (mapOffset l) { W.litmap.getD (mapOffset l) {} with prev := 0 } } := okU_iff

/-- Effect of `relink` on the map. -/
def relinkP (l : Int) (upd : LitmapEntry → LitmapEntry) (m : List LitmapEntry) : List LitmapEntry :=
  if l ≠ 0 ∧ (entryAt m l).valid l = true then m.set (mapOffset l) (upd (entryAt m l)) else m

@[smok] theorem relink_iff {l : Int} {upd : LitmapEntry → LitmapEntry} {u : Unit} :
    relink l upd W = .ok (u, W') ↔ W' = { W with litmap := relinkP l upd W.litmap } := by
  unfold relink relinkP
  simp only [smok]
  constructor
  · rintro ⟨e, W1, ⟨rfl, rfl⟩, h⟩
    rcases h with ⟨h, h'⟩ | ⟨h, rfl⟩
    · simp at h; rw [if_pos (by simpa using h)]; exact h'
    · rw [if_neg]
      simp at h ⊢; exact h
  · intro h
    refine ⟨_, _, ⟨rfl, rfl⟩, ?_⟩
    by_cases hc : l ≠ 0 ∧ (entryAt W.litmap l).valid l = true
    · rw [if_pos hc] at h; left; exact ⟨by simpa using hc, h⟩
    · rw [if_neg hc] at h; right; exact ⟨by simpa using hc, h⟩

/-- Effect of `update_litmap_` on the map. -/
def linkP (vs : VarState) (lit value : Int) (m : List LitmapEntry) : List LitmapEntry :=
  relinkP (vs.litGt value) (fun e => { e with prev := if lit ≠ 0 then lit else vs.litPrev value })
    (relinkP (vs.litLt value) (fun e => { e with succ := if lit ≠ 0 then lit else vs.litSucc value }) m)

@[smok] theorem updateLitmap_iff {var : Nat} {lit value : Int} {ps : Int × Int} :
    updateLitmap var lit value W = .ok (ps, W') ↔ ∃ vs, W.vars[var]? = some vs ∧
      ps = (vs.litPrev value, vs.litSucc value) ∧ W' = { W with litmap := linkP vs lit value W.litmap } := by
  unfold updateLitmap linkP VarState.litPrev VarState.litSucc
  simp only [smok]
  constructor
  · rintro ⟨vs, W1, ⟨h1, rfl⟩, _, _, rfl, _, _, rfl, rfl, rfl⟩
    exact ⟨vs, h1, rfl, rfl⟩
  · rintro ⟨vs, h1, rfl, rfl⟩
    exact ⟨vs, _, ⟨h1, rfl⟩, (), _, rfl, (), _, rfl, rfl, rfl⟩

@[smok] theorem litmapAdd_iff {var : Nat} {lit value : Int} {u : Unit} :
    litmapAdd var value lit W = .ok (u, W') ↔ lit ≠ 0 ∧ ∃ vs, W.vars[var]? = some vs ∧ vs.litPrev value ≠ 0 ∧
      W' = { W with
        litmap := (linkP vs lit value (growTo (mapOffset lit + 1) W.litmap)).set (mapOffset lit)
          ⟨var, LitmapEntry.getSign lit, value, vs.litPrev value, vs.litSucc value⟩
        log := .order lit var value :: W.log } := by
  unfold litmapAdd
  simp only [smok]
  constructor
  · rintro ⟨_, _, ⟨h0, rfl⟩, _, _, rfl, ps, _, ⟨vs, h1, rfl, rfl⟩, _, _, ⟨h2, rfl⟩, rfl⟩
    exact ⟨by simpa using h0, vs, h1, by simpa using h2, rfl⟩
  · rintro ⟨h0, vs, h1, h2, rfl⟩
    exact ⟨(), _, ⟨by simpa using h0, rfl⟩, (), _, rfl, _, _, ⟨vs, h1, rfl, rfl⟩, (), _, ⟨by simpa using h2, rfl⟩, rfl⟩

theorem litPrev_ne {vs : VarState} {k : Int} : vs.litPrev k ≠ 0 := by
  unfold VarState.litPrev TRUE_LIT; split_ifs <;> simp_all
theorem litSucc_ne {vs : VarState} {k : Int} : vs.litSucc k ≠ 0 := by
  unfold VarState.litSucc TRUE_LIT; split_ifs <;> simp_all

end Clingcon
