import Verif.Props.NonlinearCheck
import Verif.Proof.SumCheck

/-! C23: the function `check` and linear constraints whose least value exceeds the right-hand side. -/
set_option linter.unusedVariables false
namespace Clingcon.Props
open Clingcon Spec

variable {cc : CC} {W W' : World} {n v fuel : Nat} {ck : Bool} {clit co r : Int} {es : List (Int × Nat)} {c : CState}

/-- **C23** Let a linear constraint be queued or a change of a bound be pending that increases its least value. If the least value
exceeds the right-hand side and `check` succeeds, then the literal of the constraint is false, or a clause has been added in which
all literals are false except for the negated literal of the constraint. The constraint is not inactive, and it is in the queue if
it is marked, see `C58_queue_partial`. -/
theorem C23_check (hv : EnvMono cc) (hr : Reach W) (hl : cc.level = W.level) (hcs : W.book.cs[n]? = some c) (ha : c.alive = true) (hin : c.markedInactive = false)
    (hq : c.todo = true → n ∈ W.book.todo) (hk : c.con = .sum clit r es) (hw : (co, v) ∈ es)
    (hd : n ∈ W.book.todo ∨ co < 0 ∧ v ∈ W.book.inUdiff ∨ 0 < co ∧ v ∈ W.book.inLdiff) (hno : r < leastSum (lowerOf W) (upperOf W) es)
    (h : solverCheck cc ck fuel W = .ok (true, W')) :
    cc.isFalse W'.log clit = true ∨
    ∃ cl log, (.clause cl :: log) <:+ W'.log ∧ W.log <:+ log ∧ ∀ l ∈ cl, l = -clit ∨ cc.isFalse W'.log l = true := by
  rw [← lowerOf_fun, ← upperOf_fun, ← lowSum_eq] at hno
  have hn : c.inactive = 0 := by unfold CState.markedInactive at hin; simpa using hin
  have hne := hr.wi.ne
  cases hls : W.book.levels with
  | nil => exact absurd hls hne
  | cons l ls =>
    have hlv : cc.level = l.level := by rw [hl]; unfold World.level; rw [hls]
    exact (solverCheck_posted hv hr.nested hr.wi.bi hls hlv hcs ha hk hn hq hw hd hno h).imp id (·.after hv)

/-- **C23** In the situation of `C23_check`, let the literal of the constraint be true and let the solver reject clauses whose literals
are all false. Then, `check` reports a conflict. -/
theorem C23_check_conflict (hv : EnvMono cc) (hr : Reach W) (hl : cc.level = W.level) (hc : clit ≠ 0) (ht : cc.isTrue W.log clit = true)
    (hrej : ∀ cl log, (∀ l ∈ cl, cc.isFalse log l = true) → cc.accept (.clause cl :: log) = false) (hcs : W.book.cs[n]? = some c) (ha : c.alive = true)
    (hin : c.markedInactive = false) (hq : c.todo = true → n ∈ W.book.todo) (hk : c.con = .sum clit r es) (hw : (co, v) ∈ es)
    (hd : n ∈ W.book.todo ∨ co < 0 ∧ v ∈ W.book.inUdiff ∨ 0 < co ∧ v ∈ W.book.inLdiff) (hno : r < leastSum (lowerOf W) (upperOf W) es)
    {res : Bool} (h : solverCheck cc ck fuel W = .ok (res, W')) : res = false := by
  cases res with
  | false => rfl
  | true =>
    exfalso
    rw [← lowerOf_fun, ← upperOf_fun, ← lowSum_eq] at hno
    have hn : c.inactive = 0 := by unfold CState.markedInactive at hin; simpa using hin
    have hne := hr.wi.ne
    cases hls : W.book.levels with
    | nil => exact absurd hls hne
    | cons l ls =>
      have hlv : cc.level = l.level := by rw [hl]; unfold World.level; rw [hls]
      have hsuf : W.log <:+ W'.log := suffix_of (m := false) (ext_solverCheck.ext _ _ _ h)
      rcases solverCheck_posted hv hr.nested hr.wi.bi hls hlv hcs ha hk hn hq hw hd hno h with hh | ⟨cl, L, a1, a2, a3, a4⟩
      · exact not_both (mono_true hv hsuf ht) hh
      · rw [hrej cl L (fun y hy => ?_)] at a4
        · cases a4
        · rcases a3 y hy with rfl | hy
          · rw [isFalse_neg hc]; exact mono_true hv a2 ht
          · exact hy

/-- `x` and `y` in `[1, 3]` and `x + y ≤ 3`; `x > 1` and `y > 1` have been decided. -/
def sumStart : World := (tryRun [.addVar 1 3, .addVar 1 3, .addConstraint (.sum 5 3 [(1, 0), (1, 1)]), .check idle false 9, .literal idle 0 1, .literal idle 1 1,
  .propagate above [6, 7]] (World.init 6)).getD (World.init 6)

/-- The hypotheses of `C23_check` are met after two decisions, and the conflicting clause is added. -/
example : EnvMono above ∧ Reach sumStart ∧ above.level = sumStart.level ∧
    (∃ c, sumStart.book.cs[0]? = some c ∧ c.alive = true ∧ c.markedInactive = false ∧ (c.todo = true → 0 ∈ sumStart.book.todo) ∧ c.con = .sum 5 3 [(1, 0), (1, 1)]) ∧
    0 ∈ sumStart.book.inLdiff ∧ leastSum (lowerOf sumStart) (upperOf sumStart) [(1, 0), (1, 1)] = 4 ∧
    (solverCheck above false 9 sumStart).toOption.map (fun p => (p.1, p.2.log.contains (.clause [-6, -7, -5]))) = some (true, true) :=
  ⟨fun _ _ _ _ h => h, ⟨6, _, by decide, tryRun_getD (by decide +kernel)⟩, by decide +kernel,
    ⟨sumStart.book.cs[0]?.getD { con := .disjoint 0 [] }, by decide +kernel⟩, by decide +kernel, by decide +kernel, by decide +kernel⟩

/-- The hypotheses of `C23_check_conflict` are met after two decisions, and `check` reports a conflict. -/
example : EnvMono aboveStrict ∧ Reach sumStart ∧ aboveStrict.level = sumStart.level ∧ aboveStrict.isTrue sumStart.log 5 = true ∧
    (∀ cl log, (∀ l ∈ cl, aboveStrict.isFalse log l = true) → aboveStrict.accept (.clause cl :: log) = false) ∧
    (∃ c, sumStart.book.cs[0]? = some c ∧ c.alive = true ∧ c.markedInactive = false ∧ (c.todo = true → 0 ∈ sumStart.book.todo) ∧ c.con = .sum 5 3 [(1, 0), (1, 1)]) ∧
    0 ∈ sumStart.book.inLdiff ∧ leastSum (lowerOf sumStart) (upperOf sumStart) [(1, 0), (1, 1)] = 4 ∧
    (solverCheck aboveStrict false 9 sumStart).toOption.map (fun p => p.1) = some false :=
  ⟨fun _ _ _ _ h => h, ⟨6, _, by decide, tryRun_getD (by decide +kernel)⟩, by decide +kernel, by decide +kernel, aboveStrict_rejects,
    ⟨sumStart.book.cs[0]?.getD { con := .disjoint 0 [] }, by decide +kernel⟩, by decide +kernel, by decide +kernel, by decide +kernel⟩

end Clingcon.Props
