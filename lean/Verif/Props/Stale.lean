import Verif.Props.Solutions
import Verif.Proof.Dirty
import Verif.Spec.Stale

/-! Property C77: distinct constraints are translated according to current bounds. -/
set_option linter.unusedSimpArgs false
set_option linter.unusedVariables false
namespace Clingcon.Props
open Clingcon Clingcon.Spec

/-- The configuration of `toWeights` with a smaller limit for distinct constraints. -/
def smallDistinct : TConf := { toWeights with distinctLimit := 3 }

/-- The first solve step: there are `x` and `y` in `[0, 3]`, order literals for `x ≤ 2` and `y ≤ 2`, and a distinct constraint over `x` and `y`.
After simplification, the search assigns `x = 3` and `y ≤ 2` on level one. Then, the level is undone, and the second step starts with simplification. -/
def staleOps : List Op := [.addVar 0 3, .addVar 0 3, .literal idle 0 2, .literal idle 1 2, .addConstraint (.distinct 1 [([(1, 0)], 0), ([(1, 1)], 0)]),
  .simplify idle (fun _ => [1]) true 9, .propagate (assigns 1 [(2, true)]) [2], .check (assigns 1 [(2, true)]) true 9,
  .propagate (assigns 1 [(2, true), (3, false)]) [-3], .check (assigns 1 [(2, true), (3, false)]) true 9, .undo, .simplify idle (fun _ => [1]) true 9]

/-- The state after the first simplification. -/
def staleFirst : World := (tryRun (staleOps.take 6) (World.init 2)).getD (World.init 2)
/-- The state after the second simplification. -/
def staleStart : World := (tryRun staleOps (World.init 2)).getD (World.init 2)
/-- The state after the translation in the second step. -/
def staleEnd : World := match solverTranslate idle smallDistinct 9 9 [.old 0] staleStart with | .ok p => p.2 | .error _ => World.init 2

theorem stale_reach : Reach staleStart := ⟨2, staleOps, by decide, tryRun_getD (by decide +kernel)⟩

theorem stale_end : solverTranslate idle smallDistinct 9 9 [.old 0] staleStart = .ok ((true, []), staleEnd) := by
  have h : (solverTranslate idle smallDistinct 9 9 [.old 0] staleStart).toOption.map Prod.fst = some (true, []) := by decide +kernel
  unfold staleEnd
  generalize solverTranslate idle smallDistinct 9 9 [.old 0] staleStart = x at h ⊢
  cases x with
  | error e => cases h
  | ok p =>
    obtain ⟨q, W'⟩ := p
    simp only [Except.toOption, Option.map_some, Option.some.injEq] at h
    rw [h]

theorem stale_vars : staleEnd.vars = [{ lower := 0, upper := 3, table := .vec 0 [0, 0, -2] }, { lower := 0, upper := 3, table := .vec 0 [0, 0, -3] }] := by decide +kernel
theorem stale_litmap : staleEnd.litmap = staleStart.litmap := by decide +kernel
theorem stale_log : staleEnd.log = [.weight 1 [(2, 1), (3, 1)] 1 1, .propagate, .clause [-2, -3], .propagate, .propagate, .watch 3, .watch (-3), .order (-3) 1 2, .lit 3,
  .watch 2, .watch (-2), .order (-2) 0 2, .lit 2] := by decide +kernel
theorem stale_states : states staleEnd = [(.distinct 1 [([(1, 0)], 0), ([(1, 1)], 0)], false)] := by decide +kernel

/-- Only the literal that is true. -/
def onlyTrue : Nat → Bool := fun a => a == 1

theorem stale_table : ∀ vs ∈ staleEnd.vars, ∀ p ∈ vs.with, (p.2 = -2 ∨ p.2 = -3) ∧ p.1 = 2 := by rw [stale_vars]; decide +kernel

theorem stale_entries : ∀ i < staleEnd.litmap.length, ∀ e ∈ staleEnd.litmap[i]?, e.prev ≠ 0 →
    (i = 1 ∨ i = 2) ∧ e.sign = false ∧ e.value = 2 := by decide +kernel

/-- After the translation, `x = y = 0` is a solution. -/
theorem stale_solution : Solution onlyTrue (fun _ => 0) staleEnd := by
  have n2 : litTrue onlyTrue (-2) := by simp [litTrue, onlyTrue]
  have n3 : litTrue onlyTrue (-3) := by simp [litTrue, onlyTrue]
  refine ⟨⟨by decide +kernel, fun v vs hv k l hm => ?_, fun v vs hv => ?_, fun i e he hp => ?_, fun f v k p hm => ?_, fun e he => ?_⟩, fun l v k hm => ?_, fun n c hc _ => ?_⟩
  · obtain ⟨h1, h2⟩ := stale_table vs (List.mem_of_getElem? hv) (k, l) hm
    simp only at h1 h2
    subst h2
    rcases h1 with rfl | rfl
    · exact iff_of_true n2 (by decide)
    · exact iff_of_true n3 (by decide)
  · have : ∀ vs ∈ staleEnd.vars, vs.minBound ≤ 0 ∧ 0 ≤ vs.maxBound := by rw [stale_vars]; decide +kernel
    exact this vs (List.mem_of_getElem? hv)
  · obtain ⟨h1, h2, h3⟩ := stale_entries i (List.getElem?_eq_some_iff.mp he).1 e he hp
    rw [h2, h3]
    rcases h1 with rfl | rfl
    · exact iff_of_true n2 (by decide)
    · exact iff_of_true n3 (by decide)
  · have : staleEnd.factmap = [] := by decide +kernel
    rw [this] at hm; cases hm
  · rw [stale_log] at he
    have : ∀ e ∈ ([.weight 1 [(2, 1), (3, 1)] 1 1, .propagate, .clause [-2, -3], .propagate, .propagate, .watch 3, .watch (-3), .order (-3) 1 2, .lit 3,
      .watch 2, .watch (-2), .order (-2) 0 2, .lit 2] : List SEv), evHolds onlyTrue e := by
      intro e he
      simp only [List.mem_cons, List.not_mem_nil, or_false] at he
      rcases he with rfl | rfl | rfl | rfl | rfl | rfl | rfl | rfl | rfl | rfl | rfl | rfl | rfl
      all_goals first | trivial | exact ⟨-2, by simp, n2⟩ | (simp [evHolds, weightSum, litTrue, onlyTrue])
    exact this e he
  · rw [stale_log] at hm
    simp only [List.mem_cons, SEv.order.injEq, List.not_mem_nil, or_false, reduceCtorEq, false_or] at hm
    rcases hm with ⟨rfl, rfl, rfl⟩ | ⟨rfl, rfl, rfl⟩
    · exact iff_of_true n3 (by decide)
    · exact iff_of_true n2 (by decide)
  · rw [stale_states] at hc
    match n, hc with
    | 0, h => injection h with h; injection h with _ h; cases h
    | (n + 1), h => cases h

/-- **C77** Bounds of terms recorded by a distinct constraint during search are not updated when the search is undone, and the translation of the
constraint in the next solve step is based on them. In the state reached, no work is pending, the bounds of `x` and `y` are `[0, 3]` again, and the
distinct constraint is in use. It is translated and removed, even though the same translation was considered too big in the first step, and
afterwards `x = y = 0` is a solution, which is excluded by the constraint. -/
theorem C77_violated : ∃ (W1 W W' : World) (β : Nat → Bool) (σ : Nat → Int) (es : List (CoVarVec × Int)), Reach W1 ∧ Reach W ∧
    (∃ W2, solverTranslate idle smallDistinct 9 9 [.old 0] W1 = .ok ((true, [.old 0]), W2)) ∧
    W.settled ∧ W.factmap = [] ∧ W.book.levels.length = 1 ∧ states W = [(.distinct 1 es, true)] ∧ states W1 = states W ∧
    (W.vars.map (fun vs => (vs.lower, vs.upper)) = W1.vars.map (fun vs => (vs.lower, vs.upper))) ∧
    solverTranslate idle smallDistinct 9 9 [.old 0] W = .ok ((true, []), W') ∧ EnvSound idle β ∧ litTrue β 1 ∧
    Solution β σ W' ∧ ¬ (es.map (fun e => wsum σ e.1 + e.2)).Nodup := by
  refine ⟨staleFirst, staleStart, staleEnd, onlyTrue, fun _ => 0, [([(1, 0)], 0), ([(1, 1)], 0)], ⟨2, staleOps.take 6, by decide, tryRun_getD (by decide +kernel)⟩, stale_reach,
    ?_, by refine ⟨⟨?_, ?_⟩, ?_⟩ <;> decide +kernel, by decide +kernel, by decide +kernel, by decide +kernel, by decide +kernel, by decide +kernel, stale_end, idle_sound rfl, rfl,
    stale_solution, by decide⟩
  have h : (solverTranslate idle smallDistinct 9 9 [.old 0] staleFirst).toOption.map Prod.fst = some (true, [.old 0]) := by decide +kernel
  generalize solverTranslate idle smallDistinct 9 9 [.old 0] staleFirst = x at h ⊢
  cases x with
  | error e => cases h
  | ok p =>
    obtain ⟨q, W2⟩ := p
    simp only [Except.toOption, Option.map_some, Option.some.injEq] at h
    exact ⟨W2, by rw [h]⟩

/-! ### The first solve step -/

variable {W W' : World} {cc : CC} {tc : TConf} {fuel : Nat} {ops : List Op} {m : Int} {β : Nat → Bool} {σ : Nat → Int}

theorem straight_run (h : Straight ops W W') : Run ops W W' := by
  induction h with
  | nil => exact .nil _
  | cons hp _ _ hx _ ih => exact .cons hp hx ih

theorem straight_hot (h : Straight ops W W') : HotQ W.book → HotQ W'.book := by
  induction h with
  | nil => exact id
  | cons _ h1 h2 hx _ ih => exact fun hq => ih (hot_step hx h1 h2 hq)

theorem straight_dirty (h : Straight ops (World.init m) W) (ht : W.book.todo = []) {n : Nat} {c : CState} {lit : Lit} {es : List (CoVarVec × Int)} (hc : W.book.cs[n]? = some c)
    (ha : c.alive = true) (hi : c.inactive = 0) (hk : c.con = .distinct lit es) : c.dirty = [] := by
  have hq := straight_hot h (fun n c hc => by cases hc)
  cases hd : c.dirty with
  | nil => rfl
  | cons i is =>
    have : hot c = true := by simp [hot, ha, hk, hd, hi]
    have := hq n c hc this
    rw [ht] at this; cases this

/-- **C77** Before the search is undone for the first time, the bounds of terms on which the translation is based are those given by the current bounds of
variables, provided that no work is pending, and that the constraint is not inactive. -/
theorem C77_current_partial (hm : 1 < m) (h : Straight ops (World.init m) W) (hs : W.settled) {n : Nat} {c : CState} {lit : Lit} {es : List (CoVarVec × Int)}
    (hc : W.book.cs[n]? = some c) (ha : c.alive = true) (hi : c.inactive = 0) (hk : c.con = .distinct lit es) {i : Nat} {e : CoVarVec × Int} (he : es[i]? = some e) :
    c.assigned[i]? = some (leastSum (lowerOf W) (upperOf W) e.1 + e.2, greatestSum (lowerOf W) (upperOf W) e.1 + e.2) :=
  C21_distinct_exact ⟨m, ops, hm, straight_run h⟩ hs.1 hc ha (by simp [CState.removableAt, CState.markedInactive, hi]) hk he
    (by rw [straight_dirty h hs.2 hc ha hi hk]; exact List.not_mem_nil)

/-- **C77** In the first solve step, solutions after the translation are solutions before the translation. -/
theorem C77_enforced_partial {steps : Nat} {v kept : List TCon} (he : EnvSound cc β) (h0 : cc.level = 0) (ho : SortOk tc) (hm : 1 < m) (h : Straight ops (World.init m) W)
    (hs : W.settled) (htop : W.book.levels.length = 1) (hn : ∀ (n : Nat) c, W.book.cs[n]? = some c → c.alive = true → Nonzero c.con ∧ c.inactive = 0) (hv : InQueue W v)
    (hx : solverTranslate cc tc fuel steps v W = .ok ((true, kept), W')) (hl : W'.vars.length ≤ INVALID_VAR) (hsol : Solution β σ W') : Solution β σ W :=
  C73_enforced he h0 ho ⟨m, ops, hm, straight_run h⟩
    ⟨htop, hs.1.1, hs.1.2, fun n c hc ha => ⟨(hn n c hc ha).1, fun lit es hk => straight_dirty h hs.2 hc ha (hn n c hc ha).2 hk⟩⟩ hv hx hl hsol

/-- Straight sequences of calls can be computed. -/
def tryStraight : List Op → World → Bool
  | [], _ => true
  | op :: ops, W => op.preB W && (match op with | .undo => false | .removeConstraints _ => false | _ => true) &&
      (match op.exec W with | .ok (true, W1) => tryStraight ops W1 | _ => false)

theorem tryStraight_ok : ∀ {ops : List Op} {W : World}, tryStraight ops W = true → ∃ W', Straight ops W W' ∧ tryRun ops W = some W'
  | [], W, _ => ⟨W, .nil _, rfl⟩
  | op :: ops, W, h => by
    unfold tryStraight at h
    simp only [Bool.and_eq_true] at h
    obtain ⟨⟨h1, h2⟩, h3⟩ := h
    cases hx : op.exec W with
    | error e => rw [hx] at h3; cases h3
    | ok p =>
      obtain ⟨r, W1⟩ := p
      rw [hx] at h3
      cases r with
      | false => cases h3
      | true =>
        obtain ⟨W', a, b⟩ := tryStraight_ok (show tryStraight ops W1 = true from h3)
        refine ⟨W', .cons (Op.preB_iff.mp h1) ?_ ?_ hx a, ?_⟩
        · rintro rfl; cases h2
        · rintro rem rfl; cases h2
        · unfold tryRun
          rw [if_pos h1, hx]
          exact b

/-- The hypotheses are met in the first step of the example; the distinct constraint is translated if the limit permits. -/
example : Straight (staleOps.take 6) (World.init 2) staleFirst ∧ staleFirst.settled ∧ staleFirst.book.levels.length = 1 ∧
    (∃ c, staleFirst.book.cs[0]? = some c ∧ c.alive = true ∧ c.inactive = 0 ∧ c.con = .distinct 1 [([(1, 0)], 0), ([(1, 1)], 0)] ∧ c.assigned = [(0, 3), (0, 3)]) ∧
    (solverTranslate idle toWeights 9 9 [.old 0] staleFirst).toOption.map Prod.fst = some (true, []) := by
  refine ⟨?_, by refine ⟨⟨?_, ?_⟩, ?_⟩ <;> decide +kernel, by decide +kernel, ⟨staleFirst.book.cs[0]?.getD { con := .disjoint 0 [] }, by decide +kernel⟩, by decide +kernel⟩
  obtain ⟨W', a, b⟩ := tryStraight_ok (ops := staleOps.take 6) (W := World.init 2) (by decide +kernel)
  unfold staleFirst
  rw [b]
  exact a

end Clingcon.Props
