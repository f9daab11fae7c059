import Verif.Props.SumCheck
import Verif.Proof.ObjectiveCheck

/-! C83: the function `check` and the bound of the objective. -/
set_option linter.unusedVariables false
namespace Clingcon.Props
open Clingcon Spec

variable {cc : CC} {W W' : World} {n v fuel : Nat} {ck : Bool} {adj co bound : Int} {es : List (Int × Nat)} {c : CState}

/-- **C83** Let the solver know a bound of the objective, and let the objective be queued – as it is after the bound changed – or a change of a
bound of a variable be pending that increases the least value of the objective. If the least value exceeds the bound of the objective and
`check` succeeds, then a volatile clause has been added in which all literals are false. The objective is not inactive, and it is in the
queue if it is marked, see `C58_queue_partial`. -/
theorem C83_check (hv : EnvMono cc) (hr : Reach W) (hl : cc.level = W.level) (ht : cc.isTrue W.log TRUE_LIT = true) (hcs : W.book.cs[n]? = some c) (ha : c.alive = true)
    (hin : c.markedInactive = false) (hq : c.todo = true → n ∈ W.book.todo) (hk : c.con = .minimize adj es) (hb : W.book.minimizeBound = some bound) (hw : (co, v) ∈ es)
    (hd : n ∈ W.book.todo ∨ co < 0 ∧ v ∈ W.book.inUdiff ∨ 0 < co ∧ v ∈ W.book.inLdiff) (hno : bound < leastSum (lowerOf W) (upperOf W) es)
    (h : solverCheck cc ck fuel W = .ok (true, W')) :
    ∃ cl log, (.volatile cl :: log) <:+ W'.log ∧ W.log <:+ log ∧ ∀ l ∈ cl, cc.isFalse W'.log l = true := by
  rw [← lowerOf_fun, ← upperOf_fun, ← lowSum_eq] at hno
  have hn : c.inactive = 0 := by unfold CState.markedInactive at hin; simpa using hin
  have hne := hr.wi.ne
  cases hls : W.book.levels with
  | nil => exact absurd hls hne
  | cons l ls =>
    have hlv : cc.level = l.level := by rw [hl]; unfold World.level; rw [hls]
    have hsuf : W.log <:+ W'.log := suffix_of (m := false) (ext_solverCheck.ext _ _ _ h)
    have ht' : cc.isTrue W'.log TRUE_LIT = true := mono_true hv hsuf ht
    rcases solverCheck_pruned hv hb hr.nested hr.wi.bi hls hlv hcs ha hk hn hq hw hd hno h with hh | ⟨cl, L, a1, a2, a3, -⟩
    · exact (not_both ht' hh).elim
    · refine ⟨cl, L, a1, a2, fun y hy => ?_⟩
      rcases a3 y hy with rfl | hy
      · rw [isFalse_neg (by decide)]; exact ht'
      · exact mono_false hv ((List.suffix_cons _ _).trans a1) hy

/-- **C83** In the situation of `C83_check`, let the solver reject volatile clauses whose literals are all false. Then, `check` reports a
conflict: no assignment is kept under which the objective exceeds its bound. -/
theorem C83_conflict (hv : EnvMono cc) (hr : Reach W) (hl : cc.level = W.level) (ht : cc.isTrue W.log TRUE_LIT = true)
    (hrej : ∀ cl log, (∀ l ∈ cl, cc.isFalse log l = true) → cc.accept (.volatile cl :: log) = false) (hcs : W.book.cs[n]? = some c) (ha : c.alive = true)
    (hin : c.markedInactive = false) (hq : c.todo = true → n ∈ W.book.todo) (hk : c.con = .minimize adj es) (hb : W.book.minimizeBound = some bound) (hw : (co, v) ∈ es)
    (hd : n ∈ W.book.todo ∨ co < 0 ∧ v ∈ W.book.inUdiff ∨ 0 < co ∧ v ∈ W.book.inLdiff) (hno : bound < leastSum (lowerOf W) (upperOf W) es)
    {res : Bool} (h : solverCheck cc ck fuel W = .ok (res, W')) : res = false := by
  cases res with
  | false => rfl
  | true =>
    exfalso
    rw [← lowerOf_fun, ← upperOf_fun, ← lowSum_eq] at hno
    have hn : c.inactive = 0 := by unfold CState.markedInactive at hin; simpa using hin
    have hne := hr.wi.ne
    cases hls : W.book.levels with
    | nil => exact absurd hls hne
    | cons l ls =>
      have hlv : cc.level = l.level := by rw [hl]; unfold World.level; rw [hls]
      have hsuf : W.log <:+ W'.log := suffix_of (m := false) (ext_solverCheck.ext _ _ _ h)
      rcases solverCheck_pruned hv hb hr.nested hr.wi.bi hls hlv hcs ha hk hn hq hw hd hno h with hh | ⟨cl, L, a1, a2, a3, a4⟩
      · exact not_both (mono_true hv hsuf ht) hh
      · rw [hrej cl L (fun y hy => ?_)] at a4
        · cases a4
        · rcases a3 y hy with rfl | hy
          · rw [isFalse_neg (by decide)]; exact mono_true hv a2 ht
          · exact hy

/-- `x` and `y` in `[1, 3]` and the objective `x + y` with bound 3; `x > 1` and `y > 1` have been decided. -/
def objectiveStart : World := (tryRun [.addVar 1 3, .addVar 1 3, .addConstraint (.minimize 0 [(1, 0), (1, 1)]), .check idle false 9, .literal idle 0 1, .literal idle 1 1,
  .propagate above [6, 7], .updateMinimize 0 1 3] (World.init 6)).getD (World.init 6)

/-- The hypotheses of `C83_check` are met after two decisions, and the conflicting clause is added. -/
example : EnvMono above ∧ Reach objectiveStart ∧ above.level = objectiveStart.level ∧ above.isTrue objectiveStart.log TRUE_LIT = true ∧
    (∃ c, objectiveStart.book.cs[0]? = some c ∧ c.alive = true ∧ c.markedInactive = false ∧ (c.todo = true → 0 ∈ objectiveStart.book.todo) ∧ c.con = .minimize 0 [(1, 0), (1, 1)]) ∧
    objectiveStart.book.minimizeBound = some 3 ∧ 0 ∈ objectiveStart.book.todo ∧ 0 ∈ objectiveStart.book.inLdiff ∧ leastSum (lowerOf objectiveStart) (upperOf objectiveStart) [(1, 0), (1, 1)] = 4 ∧
    (solverCheck above false 9 objectiveStart).toOption.map (fun p => (p.1, p.2.log.contains (.volatile [-6, -7, -1]))) = some (true, true) :=
  ⟨fun _ _ _ _ h => h, ⟨6, _, by decide, tryRun_getD (by decide +kernel)⟩, by decide +kernel, by decide +kernel,
    ⟨objectiveStart.book.cs[0]?.getD { con := .disjoint 0 [] }, by decide +kernel⟩, by decide +kernel, by decide +kernel, by decide +kernel, by decide +kernel, by decide +kernel⟩

/-- The literals 5, 6 and 7 are true, and volatile clauses whose literals are all false are rejected. -/
def aboveVolatile : CC := { above with accept := fun log => match log with
  | .volatile cl :: log => cl.any (fun l => !above.isFalse log l)
  | _ => true }

/-- The hypotheses of `C83_conflict` are met after two decisions, and `check` reports a conflict. -/
example : EnvMono aboveVolatile ∧ Reach objectiveStart ∧ aboveVolatile.level = objectiveStart.level ∧ aboveVolatile.isTrue objectiveStart.log TRUE_LIT = true ∧
    (∀ cl log, (∀ l ∈ cl, aboveVolatile.isFalse log l = true) → aboveVolatile.accept (.volatile cl :: log) = false) ∧
    (∃ c, objectiveStart.book.cs[0]? = some c ∧ c.alive = true ∧ c.markedInactive = false ∧ (c.todo = true → 0 ∈ objectiveStart.book.todo) ∧ c.con = .minimize 0 [(1, 0), (1, 1)]) ∧
    objectiveStart.book.minimizeBound = some 3 ∧ 0 ∈ objectiveStart.book.inLdiff ∧ leastSum (lowerOf objectiveStart) (upperOf objectiveStart) [(1, 0), (1, 1)] = 4 ∧
    (solverCheck aboveVolatile false 9 objectiveStart).toOption.map (fun p => p.1) = some false :=
  ⟨fun _ _ _ _ h => h, ⟨6, _, by decide, tryRun_getD (by decide +kernel)⟩, by decide +kernel, by decide +kernel,
    fun cl log h => by
      show cl.any (fun l => !above.isFalse log l) = false
      rw [List.any_eq_false]
      intro l hl
      have h1 : above.isFalse log l = true := h l hl
      simp [h1],
    ⟨objectiveStart.book.cs[0]?.getD { con := .disjoint 0 [] }, by decide +kernel⟩, by decide +kernel, by decide +kernel, by decide +kernel, by decide +kernel⟩

end Clingcon.Props
