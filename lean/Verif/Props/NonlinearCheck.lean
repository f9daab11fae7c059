import Verif.Props.DistinctCheck
import Verif.Props.Disjoint
import Verif.Proof.NonlinearCheck

/-! C82: the function `check` and nonlinear constraints that no values between the bounds satisfy. -/
set_option linter.unusedVariables false
namespace Clingcon.Props
open Clingcon Spec

variable {cc : CC} {W W' : World} {n v fuel x y z : Nat} {ck : Bool} {clit ca cb r : Int} {c : CState}

/-- **C82** Let a nonlinear constraint `ca * x * y + cb * z ≤ r` be queued or a change of a bound of one of its variables be pending. If
no values between the bounds satisfy the constraint and `check` succeeds, then the literal of the constraint is false, or a
clause has been added that consists of literals `v ≤ lower - 1` and `v > upper` for bounds of `x`, `y` and `z` when the clause was
added. The constraint is not inactive, and it is in the queue if it is marked, see `C58_queue_partial`. -/
theorem C82_check (hv : EnvMono cc) (hr : Reach W) (hl : cc.level = W.level) (hcs : W.book.cs[n]? = some c) (ha : c.alive = true) (hin : c.markedInactive = false)
    (hq : c.todo = true → n ∈ W.book.todo) (hk : c.con = .nonlinear clit ca x y cb z r) (hw : v = x ∨ v = y ∨ cb ≠ 0 ∧ v = z)
    (hd : n ∈ W.book.todo ∨ v ∈ W.book.inUdiff ∨ v ∈ W.book.inLdiff)
    (hno : ∀ a b d, lowerOf W x ≤ a → a ≤ upperOf W x → lowerOf W y ≤ b → b ≤ upperOf W y → lowerOf W z ≤ d → d ≤ upperOf W z → ca * (a * b) + cb * d > r)
    (h : solverCheck cc ck fuel W = .ok (true, W')) :
    cc.isFalse W'.log clit = true ∨
    ∃ cl Wa, (.clause cl :: Wa.log) <:+ W'.log ∧ W.log <:+ Wa.log ∧ (∀ u, lowerOf W u ≤ lowerOf Wa u ∧ upperOf Wa u ≤ upperOf W u) ∧
      ∀ l ∈ cl, ∃ u, (u = x ∨ u = y ∨ u = z) ∧ (LitOf Wa u (upperOf Wa u) (-l) ∨ LitOf Wa u (lowerOf Wa u - 1) l) := by
  rw [← lowerOf_fun, ← upperOf_fun] at hno
  have hn : c.inactive = 0 := by unfold CState.markedInactive at hin; simpa using hin
  have hne := hr.wi.ne
  cases hls : W.book.levels with
  | nil => exact absurd hls hne
  | cons l ls =>
    have hlv : cc.level = l.level := by rw [hl]; unfold World.level; rw [hls]
    rcases solverCheck_refuted hv hr.ti hr.nested hr.wi.bi hls hlv hcs ha hk hn hq hw hd hno h with hh | ⟨cl, Wa, a1, a2, a3, a4, -⟩
    · exact .inl hh
    · refine .inr ⟨cl, Wa, a1, a2, ?_, fun l hl => ?_⟩
      · rw [← lowerOf_fun, ← upperOf_fun, ← lowerOf_fun, ← upperOf_fun]
        exact a3.2
      · rw [← lowerOf_fun, ← upperOf_fun]
        obtain ⟨u, hu, h⟩ := a4 l hl
        exact ⟨u, by simpa using hu, h⟩

/-- **C82** In the situation of `C82_check`, let there be decisions, let the current bounds be justified by literals (see
`C50_justified`), and let the solver reject clauses whose literals are all false. Then, `check` reports a conflict unless
the literal of the constraint is false. -/
theorem C82_conflict (hv : EnvMono cc) (hr : Reach W) (hl : cc.level = W.level) (h0 : cc.level ≠ 0) (hb : BoundLits cc W) (hT : cc.isTrue W.log TRUE_LIT = true)
    (hrej : ∀ cl log, (∀ l ∈ cl, cc.isFalse log l = true) → cc.accept (.clause cl :: log) = false)
    (hcs : W.book.cs[n]? = some c) (ha : c.alive = true) (hin : c.markedInactive = false)
    (hq : c.todo = true → n ∈ W.book.todo) (hk : c.con = .nonlinear clit ca x y cb z r) (hw : v = x ∨ v = y ∨ cb ≠ 0 ∧ v = z)
    (hd : n ∈ W.book.todo ∨ v ∈ W.book.inUdiff ∨ v ∈ W.book.inLdiff)
    (hno : ∀ a b d, lowerOf W x ≤ a → a ≤ upperOf W x → lowerOf W y ≤ b → b ≤ upperOf W y → lowerOf W z ≤ d → d ≤ upperOf W z → ca * (a * b) + cb * d > r)
    {res : Bool} (h : solverCheck cc ck fuel W = .ok (res, W')) (hf : cc.isFalse W'.log clit = false) : res = false := by
  cases res with
  | false => rfl
  | true =>
    exfalso
    rw [← lowerOf_fun, ← upperOf_fun] at hno
    have hn : c.inactive = 0 := by unfold CState.markedInactive at hin; simpa using hin
    have hne := hr.wi.ne
    cases hls : W.book.levels with
    | nil => exact absurd hls hne
    | cons l ls =>
      have hlv : cc.level = l.level := by rw [hl]; unfold World.level; rw [hls]
      rcases solverCheck_refuted hv hr.ti hr.nested hr.wi.bi hls hlv hcs ha hk hn hq hw hd hno h with hh | hh
      · rw [hf] at hh; cases hh
      · obtain ⟨cl, log, -, -, h3, h4⟩ := hh.false hv h0 hr.ti hr.nested hb hT
        rw [hrej cl log h3] at h4; cases h4

/-- The literals 5, 6 and 7 are true. -/
def above : CC := { assigns 1 [(5, true), (6, true), (7, true)] with accept := fun _ => true }

/-- `x` and `y` in `[1, 3]` and `x * y ≤ 3`; `x > 1` and `y > 1` have been decided. -/
def productStart : World := (tryRun [.addVar 1 3, .addVar 1 3, .addConstraint (.nonlinear 5 1 0 1 0 0 3), .check idle false 9, .literal idle 0 1, .literal idle 1 1,
  .propagate above [6, 7]] (World.init 6)).getD (World.init 6)

/-- The hypotheses of `C82_check` are met after two decisions, and the conflicting clause is added. -/
example : EnvMono above ∧ Reach productStart ∧ above.level = productStart.level ∧
    (∃ c, productStart.book.cs[0]? = some c ∧ c.alive = true ∧ c.markedInactive = false ∧ (c.todo = true → 0 ∈ productStart.book.todo) ∧ c.con = .nonlinear 5 1 0 1 0 0 3) ∧
    0 ∈ productStart.book.inLdiff ∧ (∀ v ∈ [0, 1], lowerOf productStart v = 2 ∧ upperOf productStart v = 3) ∧
    (solverCheck above false 9 productStart).toOption.map (fun p => (p.1, p.2.log.contains (.clause [-1, -6, -1, -7]))) = some (true, true) :=
  ⟨fun _ _ _ _ h => h, ⟨6, _, by decide, tryRun_getD (by decide +kernel)⟩, by decide +kernel,
    ⟨productStart.book.cs[0]?.getD { con := .disjoint 0 [] }, by decide +kernel⟩, by decide +kernel, by decide +kernel, by decide +kernel⟩

/-- The literals 5, 6 and 7 are true, and clauses whose literals are all false are rejected. -/
def aboveStrict : CC := { above with accept := fun log => match log with
  | .clause cl :: log => cl.any (fun l => !above.isFalse log l)
  | _ => true }

theorem aboveStrict_rejects (cl : List Int) (log : List SEv) (h : ∀ l ∈ cl, aboveStrict.isFalse log l = true) : aboveStrict.accept (.clause cl :: log) = false := by
  show cl.any (fun l => !above.isFalse log l) = false
  rw [List.any_eq_false]
  intro l hl
  have h1 : above.isFalse log l = true := h l hl
  simp [h1]

/-- The hypotheses of `C82_conflict` are met after two decisions, and `check` reports a conflict. -/
example : EnvMono aboveStrict ∧ Reach productStart ∧ aboveStrict.level = productStart.level ∧ aboveStrict.level ≠ 0 ∧ BoundLits aboveStrict productStart ∧
    aboveStrict.isTrue productStart.log TRUE_LIT = true ∧
    (∀ cl log, (∀ l ∈ cl, aboveStrict.isFalse log l = true) → aboveStrict.accept (.clause cl :: log) = false) ∧
    (∃ c, productStart.book.cs[0]? = some c ∧ c.alive = true ∧ c.markedInactive = false ∧ (c.todo = true → 0 ∈ productStart.book.todo) ∧ c.con = .nonlinear 5 1 0 1 0 0 3) ∧
    0 ∈ productStart.book.inLdiff ∧ (∀ v ∈ [0, 1], lowerOf productStart v = 2 ∧ upperOf productStart v = 3) ∧
    (solverCheck aboveStrict false 9 productStart).toOption.map (fun p => (p.1, aboveStrict.isFalse p.2.log 5)) = some (false, false) :=
  ⟨fun _ _ _ _ h => h, ⟨6, _, by decide, tryRun_getD (by decide +kernel)⟩, by decide +kernel, by decide, boundLits_of (by decide +kernel), by decide +kernel,
    aboveStrict_rejects,
    ⟨productStart.book.cs[0]?.getD { con := .disjoint 0 [] }, by decide +kernel⟩, by decide +kernel, by decide +kernel, by decide +kernel⟩

end Clingcon.Props
