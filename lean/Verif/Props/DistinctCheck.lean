import Verif.Props.DistinctDetect
import Verif.Proof.DistinctCheck
import Verif.Proof.SafeSum

/-! C32: the function `check` and elements of distinct constraints that are fixed to the same value. -/
set_option linter.unusedVariables false
namespace Clingcon.Props
open Clingcon Spec

variable {cc : CC} {W W' : World} {n i j v fuel : Nat} {ck : Bool} {clit co : Int} {es : List (List (Int × Nat) × Int)} {ei ej : List (Int × Nat) × Int} {c : CState}
  {σ : Nat → Int}

/-- **C32** (partial) If `check` succeeds, the literal of a distinct constraint is true, two elements are fixed to the same value and
a change of a bound of a variable of one of them has not been delivered to the constraints before, then a clause has been added in
which all literals are false. In the full property, no bound has to change, see `C32_negation`. The
constraint is not inactive, and it is in the queue if it is marked, see `C58_queue_partial`. -/
theorem C32_check_partial (hv : EnvMono cc) (hr : Reach W) (hl : cc.level = W.level) (hcs : W.book.cs[n]? = some c) (ha : c.alive = true)
    (hin : c.markedInactive = false) (hq : c.todo = true → n ∈ W.book.todo) (hk : c.con = .distinct clit es) (h1 : clit ≠ 0) (ht : cc.isTrue W.log clit = true)
    (hi : es[i]? = some ei) (hj : es[j]? = some ej) (hij : i ≠ j) (hm : (co, v) ∈ ei.1) (hd : v ∈ W.book.inUdiff ∨ v ∈ W.book.inLdiff) (h0 : ∀ e ∈ ej.1, e.1 ≠ 0)
    (hfix : ∀ e ∈ ei.1 ++ ej.1, lowerOf W e.2 = σ e.2 ∧ upperOf W e.2 = σ e.2) (heq : wsum σ ei.1 + ei.2 = wsum σ ej.1 + ej.2)
    (h : solverCheck cc ck fuel W = .ok (true, W')) :
    ∃ cl log, (.clause cl :: log) <:+ W'.log ∧ W.log <:+ log ∧ ∀ l ∈ cl, cc.isFalse W'.log l = true := by
  rw [← lowerOf_fun, ← upperOf_fun] at hfix
  have f1 := fun e (he : e ∈ ei.1) => hfix e (List.mem_append_left _ he)
  have f2 := fun e (he : e ∈ ej.1) => hfix e (List.mem_append_right _ he)
  have hn : c.inactive = 0 := by unfold CState.markedInactive at hin; simpa using hin
  have hne := hr.wi.ne
  cases hls : W.book.levels with
  | nil => exact absurd hls hne
  | cons l ls =>
    have hlv : cc.level = l.level := by rw [hl]; unfold World.level; rw [hls]
    have hsuf : W.log <:+ W'.log := suffix_of (m := false) (ext_solverCheck.ext _ _ _ h)
    have ht' : cc.isTrue W'.log clit = true := mono_true hv hsuf ht
    rcases solverCheck_detect hv hr.ti hr.nested hr.wi.bi hls hlv hcs ha hk hn hq hi hj hij hm hd h0 (fun e he => (f1 e he).1.trans (f1 e he).2.symm)
      (fun e he => (f2 e he).1.trans (f2 e he).2.symm) (by rw [lowSum_eq, lowSum_eq, (sums_assigned f1).1, (sums_assigned f2).1]; exact heq) h with hh | hp
    · exact (not_both ht' hh).elim
    · obtain ⟨cl, L, a1, a2, a3⟩ := hp.after hv
      refine ⟨cl, L, a1, a2, fun y hy => ?_⟩
      rcases a3 y hy with rfl | hy
      · rw [isFalse_neg h1]; exact ht'
      · exact hy

/-- **C32** (partial) In the situation of `C32_check_partial`, let the solver reject clauses whose literals are all false. Then, `check`
reports a conflict. In the full property, no bound has to change, see `C32_negation`. -/
theorem C32_check_conflict_partial (hv : EnvMono cc) (hr : Reach W) (hl : cc.level = W.level)
    (hrej : ∀ cl log, (∀ l ∈ cl, cc.isFalse log l = true) → cc.accept (.clause cl :: log) = false) (hcs : W.book.cs[n]? = some c) (ha : c.alive = true)
    (hin : c.markedInactive = false) (hq : c.todo = true → n ∈ W.book.todo) (hk : c.con = .distinct clit es) (h1 : clit ≠ 0) (ht : cc.isTrue W.log clit = true)
    (hi : es[i]? = some ei) (hj : es[j]? = some ej) (hij : i ≠ j) (hm : (co, v) ∈ ei.1) (hd : v ∈ W.book.inUdiff ∨ v ∈ W.book.inLdiff) (h0 : ∀ e ∈ ej.1, e.1 ≠ 0)
    (hfix : ∀ e ∈ ei.1 ++ ej.1, lowerOf W e.2 = σ e.2 ∧ upperOf W e.2 = σ e.2) (heq : wsum σ ei.1 + ei.2 = wsum σ ej.1 + ej.2)
    {res : Bool} (h : solverCheck cc ck fuel W = .ok (res, W')) : res = false := by
  cases res with
  | false => rfl
  | true =>
    exfalso
    rw [← lowerOf_fun, ← upperOf_fun] at hfix
    have f1 := fun e (he : e ∈ ei.1) => hfix e (List.mem_append_left _ he)
    have f2 := fun e (he : e ∈ ej.1) => hfix e (List.mem_append_right _ he)
    have hn : c.inactive = 0 := by unfold CState.markedInactive at hin; simpa using hin
    have hne := hr.wi.ne
    cases hls : W.book.levels with
    | nil => exact absurd hls hne
    | cons l ls =>
      have hlv : cc.level = l.level := by rw [hl]; unfold World.level; rw [hls]
      have hsuf : W.log <:+ W'.log := suffix_of (m := false) (ext_solverCheck.ext _ _ _ h)
      rcases solverCheck_detect hv hr.ti hr.nested hr.wi.bi hls hlv hcs ha hk hn hq hi hj hij hm hd h0 (fun e he => (f1 e he).1.trans (f1 e he).2.symm)
        (fun e he => (f2 e he).1.trans (f2 e he).2.symm) (by rw [lowSum_eq, lowSum_eq, (sums_assigned f1).1, (sums_assigned f2).1]; exact heq) h with hh | ⟨cl, L, a1, a2, a3, a4⟩
      · exact not_both (mono_true hv hsuf ht) hh
      · rw [hrej cl L (fun y hy => ?_)] at a4
        · cases a4
        · rcases a3 y hy with rfl | hy
          · rw [isFalse_neg h1]; exact mono_true hv a2 ht
          · exact hy

/-- `x` and `y` in `[1, 3]` and `x ≠ y`; `x ≤ 1` and `y ≤ 1` have been decided and the literal 5 is true. -/
def decidedStart : World := (tryRun [.addVar 1 3, .addVar 1 3, .addConstraint (.distinct 5 [([(1, 0)], 0), ([(1, 1)], 0)]), .check idle false 9, .literal idle 0 1, .literal idle 1 1,
  .propagate (answers true) [-6, -7]] (World.init 6)).getD (World.init 6)

/-- The hypotheses of `C32_check_partial` are met for `x = 1` and `y = 1`, and the conflicting clause is added. -/
example : EnvMono (answers true) ∧ Reach decidedStart ∧ (answers true).level = decidedStart.level ∧
    (∃ c, decidedStart.book.cs[0]? = some c ∧ c.alive = true ∧ c.markedInactive = false ∧ (c.todo = true → 0 ∈ decidedStart.book.todo) ∧ c.con = .distinct 5 [([(1, 0)], 0), ([(1, 1)], 0)]) ∧
    (answers true).isTrue decidedStart.log 5 = true ∧ 0 ∈ decidedStart.book.inUdiff ∧ (∀ v ∈ [0, 1], lowerOf decidedStart v = 1 ∧ upperOf decidedStart v = 1) ∧
    (solverCheck (answers true) false 9 decidedStart).toOption.map (fun p => (p.1, p.2.log.contains (.clause [-5, 7, 6]))) = some (true, true) :=
  ⟨fun _ _ _ _ h => h, ⟨6, _, by decide, tryRun_getD (by decide +kernel)⟩, by decide +kernel,
    ⟨decidedStart.book.cs[0]?.getD { con := .disjoint 0 [] }, by decide +kernel⟩, by decide +kernel, by decide +kernel, by decide +kernel, by decide +kernel⟩

/-- The assignment of `answers true` and a solver that rejects clauses whose literals are all false. -/
def answersStrict : CC := { answers true with accept := fun log => match log with
  | .clause cl :: log => cl.any (fun l => !(answers true).isFalse log l)
  | _ => true }

/-- The hypotheses of `C32_check_conflict_partial` are met for `x = 1` and `y = 1`, and `check` reports a conflict. -/
example : EnvMono answersStrict ∧ Reach decidedStart ∧ answersStrict.level = decidedStart.level ∧
    (∀ cl log, (∀ l ∈ cl, answersStrict.isFalse log l = true) → answersStrict.accept (.clause cl :: log) = false) ∧
    (∃ c, decidedStart.book.cs[0]? = some c ∧ c.alive = true ∧ c.markedInactive = false ∧ (c.todo = true → 0 ∈ decidedStart.book.todo) ∧ c.con = .distinct 5 [([(1, 0)], 0), ([(1, 1)], 0)]) ∧
    answersStrict.isTrue decidedStart.log 5 = true ∧ 0 ∈ decidedStart.book.inUdiff ∧ (∀ v ∈ [0, 1], lowerOf decidedStart v = 1 ∧ upperOf decidedStart v = 1) ∧
    (solverCheck answersStrict false 9 decidedStart).toOption.map (fun p => p.1) = some false :=
  ⟨fun _ _ _ _ h => h, ⟨6, _, by decide, tryRun_getD (by decide +kernel)⟩, by decide +kernel,
    fun cl log h => by
      show cl.any (fun l => !(answers true).isFalse log l) = false
      rw [List.any_eq_false]
      intro l hl
      have h1 : (answers true).isFalse log l = true := h l hl
      simp [h1],
    ⟨decidedStart.book.cs[0]?.getD { con := .disjoint 0 [] }, by decide +kernel⟩, by decide +kernel, by decide +kernel, by decide +kernel, by decide +kernel⟩

end Clingcon.Props
