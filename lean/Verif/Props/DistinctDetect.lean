import Verif.Props.Distinct
import Verif.Props.Cover
import Verif.Proof.DistinctDetect

/-! C32 and C81: elements of distinct constraints that are fixed to the same value and elements with a bound that is the value of a fixed element. -/
set_option linter.unusedVariables false
namespace Clingcon.Props
open Clingcon Spec

variable {cc : CC} {W W' : World} {n i j : Nat} {ck r : Bool} {clit : Int} {es : List (List (Int × Nat) × Int)} {ei ej : List (Int × Nat) × Int} {c : CState}
  {σ : Nat → Int}

/-- **C32** (partial) If propagation of a distinct constraint starts with an element that is queued and has the same fixed value as
another element, then a clause is posted that is refused by the Boolean solver or in which all literals except the negation of the
literal of the constraint are false. In the full property, the element does not have to be queued, see `C32_negation`. -/
theorem C32_clause_partial (hv : EnvMono cc) (hr : Reach W) (hq : W.noChanges) (hcs : W.book.cs[n]? = some c) (ha : c.alive = true) (hin : c.removableAt W.level = false)
    (hk : c.con = .distinct clit es) (hi : es[i]? = some ei) (hj : es[j]? = some ej) (hij : i ≠ j) (hm : i ∈ c.todoLower ∨ i ∈ c.todoUpper)
    (h0 : ∀ e ∈ ej.1, e.1 ≠ 0) (hfix : ∀ e ∈ ei.1 ++ ej.1, lowerOf W e.2 = σ e.2 ∧ upperOf W e.2 = σ e.2) (heq : wsum σ ei.1 + ei.2 = wsum σ ej.1 + ej.2)
    (h : propagateCS cc ck n W = .ok (r, W')) :
    ∃ cl log, (.clause cl :: log) <:+ W'.log ∧ W.log <:+ log ∧
      ((r = false ∧ cc.accept (.clause cl :: log) = false) ∨ (r = true ∧ ∀ l ∈ cl, l = -clit ∨ cc.isFalse W'.log l = true)) := by
  unfold propagateCS at h
  obtain ⟨c', W1, h1, h2⟩ := SM.bind_ok h
  obtain ⟨⟨hc', -⟩, rfl⟩ := getCS_iff.mp h1
  rw [hcs] at hc'
  injection hc' with hc'
  subst hc'
  rw [hk] at h2
  cases r with
  | false =>
    obtain ⟨cl, L, a1, a2, a3⟩ := distinctPropagate_refuse h2
    exact ⟨cl, L, a1, a2, .inl ⟨rfl, a3⟩⟩
  | true =>
    have hct := counted_quiet hr hq hcs ha hin
    rw [← lowerOf_fun, ← upperOf_fun] at hct
    rw [← lowerOf_fun, ← upperOf_fun] at hfix
    have f1 := fun e (he : e ∈ ei.1) => hfix e (List.mem_append_left _ he)
    have f2 := fun e (he : e ∈ ej.1) => hfix e (List.mem_append_right _ he)
    obtain ⟨cl, L, a1, a2, a3⟩ := (distinctPropagate_detect hv hr.ti hcs hk hct hi hj hij hm h0 (fun e he => (f1 e he).1.trans (f1 e he).2.symm)
      (fun e he => (f2 e he).1.trans (f2 e he).2.symm) (by rw [lowSum_eq, lowSum_eq, (sums_assigned f1).1, (sums_assigned f2).1]; exact heq) h2).after hv
    exact ⟨cl, L, a1, a2, .inr ⟨rfl, a3⟩⟩

/-! ### Bounds equal to the value of another element -/

/-- The literal stating that the variable of a term differs from the bound at which the term is greatest or least. -/
def MovesBound (W W' : World) (greatest : Bool) (e : Int × Nat) (l : Int) : Prop :=
  if (if greatest then e.1 > 0 else e.1 < 0) then LitOf W' e.2 (upperOf W e.2 - 1) l else LitOf W' e.2 (lowerOf W e.2) (-l)

/-- **C81** (partial) If propagation of a distinct constraint starts with an element in the queue for upper (lower) bounds, the bound is the value of another element that is fixed and the element is not fixed, then one of the literals that move the bound is true afterwards, or a
clause is posted that is refused by the Boolean solver or in which all other literals except the negation of the literal of the constraint are false. In the full property, it suffices that the bound has changed, see `C81_negation`. -/
theorem C81_bound_partial {greatest : Bool} (hv : EnvMono cc) (hr : Reach W) (hq : W.noChanges) (hcs : W.book.cs[n]? = some c) (ha : c.alive = true)
    (hin : c.removableAt W.level = false) (hk : c.con = .distinct clit es) (hi : es[i]? = some ei) (hj : es[j]? = some ej)
    (hm : i ∈ if greatest then c.todoUpper else c.todoLower)
    (hn : leastSum (lowerOf W) (upperOf W) ei.1 ≠ greatestSum (lowerOf W) (upperOf W) ei.1)
    (hfix : ∀ e ∈ ej.1, lowerOf W e.2 = σ e.2 ∧ upperOf W e.2 = σ e.2)
    (heq : (if greatest then greatestSum (lowerOf W) (upperOf W) ei.1 else leastSum (lowerOf W) (upperOf W) ei.1) + ei.2 = wsum σ ej.1 + ej.2)
    (h : propagateCS cc ck n W = .ok (r, W')) :
    (r = false ∧ ∃ cl log, (.clause cl :: log) <:+ W'.log ∧ W.log <:+ log ∧ cc.accept (.clause cl :: log) = false) ∨
    (r = true ∧ ((∃ e ∈ ei.1, ∃ l, MovesBound W W' greatest e l ∧ cc.isTrue W'.log l = true) ∨
      ∃ cl log, (.clause cl :: log) <:+ W'.log ∧ W.log <:+ log ∧
        ∀ l ∈ cl, l = -clit ∨ cc.isFalse W'.log l = true ∨ ∃ e ∈ ei.1, MovesBound W W' greatest e l)) := by
  unfold propagateCS at h
  obtain ⟨c', W1, h1, h2⟩ := SM.bind_ok h
  obtain ⟨⟨hc', -⟩, rfl⟩ := getCS_iff.mp h1
  rw [hcs] at hc'
  injection hc' with hc'
  subst hc'
  rw [hk] at h2
  cases r with
  | false =>
    obtain ⟨cl, L, a1, a2, a3⟩ := distinctPropagate_refuse h2
    exact .inl ⟨rfl, cl, L, a1, a2, a3⟩
  | true =>
    refine .inr ⟨rfl, ?_⟩
    have hct := counted_quiet hr hq hcs ha hin
    have key : ∀ {e y}, Cons W' (if greatest then 1 else -1) (extremeAt (frame W1) (if greatest then 1 else -1)) e y → MovesBound W1 W' greatest e y := by
      rintro ⟨co, v⟩ y ⟨l0, b1, b2⟩
      unfold MovesBound
      rw [← lowerOf_fun, ← upperOf_fun]
      unfold extremeAt at b1 b2
      have hd : dir (if greatest then 1 else -1) (co, v) = decide (if greatest then co > 0 else co < 0) := by
        unfold dir
        cases greatest
        · simp
        · simp
      rw [hd] at b1 b2
      by_cases hg : (if greatest then co > 0 else co < 0)
      · rw [if_pos hg]
        rw [decide_eq_true hg] at b1 b2
        simp only [rk, sgn, Bool.not_true, if_true, Bool.false_eq_true, if_false] at b1 b2
        rw [b2]; exact b1
      · rw [if_neg hg]
        rw [decide_eq_false hg] at b1 b2
        simp only [rk, sgn, Bool.not_false, if_true, Bool.false_eq_true, if_false] at b1 b2
        rw [b2, Int.neg_neg]; exact b1
    rw [← lowerOf_fun, ← upperOf_fun] at hct hn hfix heq
    rcases distinctPropagate_bound (s := if greatest then 1 else -1) hv hr.ti hcs hk hct hi hj (by cases greatest <;> simp_all) (by rw [lowSum_eq, upSum_eq]; exact hn)
      (fun e he => (hfix e he).1.trans (hfix e he).2.symm) (by rw [lowSum_eq, upSum_eq, lowSum_eq, (sums_assigned hfix).1, ← heq]; cases greatest <;> simp) h2 with
      ⟨cl, L, a1, a2, a3⟩ | ⟨e, he, y, a1, a2⟩
    · exact .inr ⟨cl, L, a1, a2, fun y hy => (a3 y hy).imp id (Or.imp id (fun ⟨e, he, b⟩ => ⟨e, he, key b⟩))⟩
    · exact .inl ⟨e, he, y, key a1, a2⟩

/-! ### Elements fixed before the constraint is added -/

/-- `x` and `y` are fixed to `1` before `x ≠ y` with the true literal 1 is added. -/
def fixedStart : World := (tryRun [.addVar 1 1, .addVar 1 1, .addConstraint (.distinct 1 [([(1, 0)], 0), ([(1, 1)], 0)])] (World.init 2)).getD (World.init 2)

/-- **C32** The full property is violated by the code: elements are only queued if one of their bounds changes (constraints.cc:935-942),
not if they are already fixed when the constraint is attached (constraints.cc:817-829). -/
theorem C32_negation : ¬ ∀ (cc : CC) (W W' : World) (n i j : Nat) (c : CState) (clit : Int) (es : List (List (Int × Nat) × Int)) (ei ej : List (Int × Nat) × Int)
    (σ : Nat → Int) (ck : Bool) (fuel : Nat), EnvMono cc → Reach W → W.book.cs[n]? = some c → c.alive = true → c.removableAt W.level = false →
    c.con = .distinct clit es → cc.isTrue W.log clit = true → es[i]? = some ei → es[j]? = some ej → i ≠ j → (∀ e ∈ ej.1, e.1 ≠ 0) →
    (∀ e ∈ ei.1 ++ ej.1, lowerOf W e.2 = σ e.2 ∧ upperOf W e.2 = σ e.2) → wsum σ ei.1 + ei.2 = wsum σ ej.1 + ej.2 →
    solverCheck cc ck fuel W = .ok (true, W') → ∃ cl log, (.clause cl :: log) <:+ W'.log ∧ W.log <:+ log ∧ ∀ l ∈ cl, cc.isFalse W'.log l = true := by
  intro h
  have hk : (fixedStart.book.cs[0]?.getD ({ con := .disjoint 0 [] } : CState)).con = .distinct 1 [([(1, 0)], 0), ([(1, 1)], 0)] := by decide +kernel
  have hx : ∃ W', solverCheck (assigns 0 []) true 9 fixedStart = .ok (true, W') ∧ W'.log = [] := by
    have : (match solverCheck (assigns 0 []) true 9 fixedStart with | .ok (r, W') => r && W'.log.isEmpty | .error _ => false) = true := by decide +kernel
    cases hh : solverCheck (assigns 0 []) true 9 fixedStart with
    | error e => rw [hh] at this; cases this
    | ok p =>
      obtain ⟨r, W'⟩ := p
      rw [hh] at this
      simp only [Bool.and_eq_true, List.isEmpty_iff] at this
      exact ⟨W', by rw [this.1], this.2⟩
  obtain ⟨W', h1, h2⟩ := hx
  obtain ⟨cl, log, h3, -, -⟩ := h (assigns 0 []) fixedStart W' 0 0 1 (fixedStart.book.cs[0]?.getD { con := .disjoint 0 [] }) 1 _ ([(1, 0)], 0) ([(1, 1)], 0)
    (fun _ => 1) true 9 (fun _ _ _ _ h => h) ⟨2, _, by decide, tryRun_getD (by decide +kernel)⟩ (by decide +kernel) (by decide +kernel) (by decide +kernel) hk
    (by decide) rfl rfl (by decide) (by decide) (by decide +kernel) (by decide) h1
  rw [h2] at h3
  have := h3.length_le
  simp at this

/-! ### A concrete case -/

/-- A Boolean solver on level 1 that has assigned the given atoms and accepts all or no clauses. -/
def answers (accept : Bool) : CC := { assigns 1 [(5, true), (6, false), (7, false)] with accept := fun _ => accept }

/-- `x` and `y` in `[1, 3]` and `x ≠ y`; `x ≤ 1` and `y ≤ 1` are decided and the literal 5 is true; a first clause was refused. -/
def sameStart : World := (tryRun [.addVar 1 3, .addVar 1 3, .addConstraint (.distinct 5 [([(1, 0)], 0), ([(1, 1)], 0)]), .check idle false 9, .literal idle 0 1, .literal idle 1 1,
  .propagate (answers true) [-6, -7], .check (answers false) false 9] (World.init 6)).getD (World.init 6)

/-- The hypotheses of `C32_clause_partial` are met for `x = 1` and `y = 1`, and the conflicting clause is added. -/
example : EnvMono (answers true) ∧ Reach sameStart ∧ sameStart.noChanges ∧
    (∃ c, sameStart.book.cs[0]? = some c ∧ c.alive = true ∧ c.removableAt sameStart.level = false ∧ c.con = .distinct 5 [([(1, 0)], 0), ([(1, 1)], 0)] ∧ 0 ∈ c.todoLower) ∧
    (∀ v ∈ [0, 1], lowerOf sameStart v = 1 ∧ upperOf sameStart v = 1) ∧
    (propagateCS (answers true) false 0 sameStart).toOption.map (fun p => (p.1, p.2.log.head?)) = some (true, some (.clause [-5, 7, 6])) :=
  ⟨fun _ _ _ _ h => h, ⟨6, _, by decide, tryRun_getD (by decide +kernel)⟩, by constructor <;> decide +kernel,
    ⟨sameStart.book.cs[0]?.getD { con := .disjoint 0 [] }, by decide +kernel⟩, by decide +kernel, by decide +kernel⟩

/-- Boolean solvers that have assigned the literals for `y = 2` on level 1 and the one for `x ≥ 2` on level 2. -/
def boundAt1 : CC := assigns 1 [(5, true), (6, true), (7, false)]
def boundAt2 (accept : Bool) : CC := { assigns 2 [(5, true), (6, true), (7, false), (8, true)] with accept := fun _ => accept }

/-- `x` and `y` in `[1, 3]` and `x ≠ y`; first `y = 2` and then `x ≥ 2` is decided; a first clause was refused. -/
def boundStart : World := (tryRun [.addVar 1 3, .addVar 1 3, .addConstraint (.distinct 5 [([(1, 0)], 0), ([(1, 1)], 0)]), .check idle false 9, .literal idle 1 1, .literal idle 1 2,
  .literal idle 0 1, .propagate boundAt1 [6, -7], .check boundAt1 false 9, .propagate (boundAt2 true) [8], .check (boundAt2 false) false 9] (World.init 6)).getD (World.init 6)

/-- The hypotheses of `C81_bound_partial` are met for the lower bound of `x` and `y = 2`, and a clause with the literal 9 for `x > 2` is added; the element `y` is not queued. -/
example : EnvMono (boundAt2 true) ∧ Reach boundStart ∧ boundStart.noChanges ∧
    (∃ c, boundStart.book.cs[0]? = some c ∧ c.alive = true ∧ c.removableAt boundStart.level = false ∧ c.con = .distinct 5 [([(1, 0)], 0), ([(1, 1)], 0)] ∧ c.todoLower = [0] ∧ c.todoUpper = []) ∧
    lowerOf boundStart 0 = 2 ∧ upperOf boundStart 0 = 3 ∧ lowerOf boundStart 1 = 2 ∧ upperOf boundStart 1 = 2 ∧
    (propagateCS (boundAt2 true) false 0 boundStart).toOption.map (fun p => (p.1, p.2.log.head?)) = some (true, some (.clause [-5, 7, -6, -8, 9])) :=
  ⟨fun _ _ _ _ h => h, ⟨6, _, by decide, tryRun_getD (by decide +kernel)⟩, by constructor <;> decide +kernel,
    ⟨boundStart.book.cs[0]?.getD { con := .disjoint 0 [] }, by decide +kernel⟩, by decide +kernel, by decide +kernel, by decide +kernel, by decide +kernel, by decide +kernel⟩

/-! ### Bounds that change in the other direction -/

/-- Boolean solver that has assigned the literals for `y = 2` on level 1 and the one for `x ≤ 2` on level 2. -/
def missAt2 : CC := assigns 2 [(5, true), (6, true), (7, false), (8, false)]

/-- `x` and `y` in `[1, 3]` and `x ≠ y`; first `y = 2` and then `x ≤ 2` is decided. -/
def missStart : World := (tryRun [.addVar 1 3, .addVar 1 3, .addConstraint (.distinct 5 [([(1, 0)], 0), ([(1, 1)], 0)]), .check idle false 9, .literal idle 1 1, .literal idle 1 2,
  .literal idle 0 2, .propagate boundAt1 [6, -7], .check boundAt1 false 9, .propagate missAt2 [-8]] (World.init 6)).getD (World.init 6)

/-- **C81** The full property is violated by the code: the queue is selected by the sign of the coefficient of the variable only, no matter whether its lower
or its upper bound changed (constraints.cc:935-942, 1226-1238). The upper bound of an element with a positive coefficient is thus not compared to the values of other elements
when it changes. -/
theorem C81_negation : ¬ ∀ (cc : CC) (W W' : World) (n i j : Nat) (c : CState) (clit : Int) (es : List (List (Int × Nat) × Int)) (ei ej : List (Int × Nat) × Int)
    (σ : Nat → Int) (ck greatest : Bool) (fuel : Nat), EnvMono cc → Reach W → W.book.cs[n]? = some c → c.alive = true → c.removableAt W.level = false →
    c.con = .distinct clit es → cc.isTrue W.log clit = true → es[i]? = some ei → es[j]? = some ej →
    (∃ e ∈ ei.1, e.2 ∈ if (if greatest then e.1 > 0 else e.1 < 0) then W.book.inUdiff else W.book.inLdiff) →
    leastSum (lowerOf W) (upperOf W) ei.1 ≠ greatestSum (lowerOf W) (upperOf W) ei.1 → (∀ e ∈ ej.1, lowerOf W e.2 = σ e.2 ∧ upperOf W e.2 = σ e.2) →
    (if greatest then greatestSum (lowerOf W) (upperOf W) ei.1 else leastSum (lowerOf W) (upperOf W) ei.1) + ei.2 = wsum σ ej.1 + ej.2 →
    solverCheck cc ck fuel W = .ok (true, W') →
    (∃ e ∈ ei.1, ∃ l, MovesBound W W' greatest e l ∧ cc.isTrue W'.log l = true) ∨
      ∃ cl log, (.clause cl :: log) <:+ W'.log ∧ W.log <:+ log ∧ ∀ l ∈ cl, l = -clit ∨ cc.isFalse W'.log l = true ∨ ∃ e ∈ ei.1, MovesBound W W' greatest e l := by
  intro h
  have hk : (missStart.book.cs[0]?.getD ({ con := .disjoint 0 [] } : CState)).con = .distinct 5 [([(1, 0)], 0), ([(1, 1)], 0)] := by decide +kernel
  have hb : boundsOf missStart = [(1, 2), (2, 2)] := by decide +kernel
  have hl : lowerOf missStart = fun v => ([(1, 2), (2, 2)] : List (Int × Int))[v]?.elim 0 Prod.fst := by funext v; unfold lowerOf; rw [hb]
  have hu : upperOf missStart = fun v => ([(1, 2), (2, 2)] : List (Int × Int))[v]?.elim 0 Prod.snd := by funext v; unfold upperOf; rw [hb]
  have hx : ∃ W', solverCheck missAt2 true 9 missStart = .ok (true, W') ∧ W'.log.length = missStart.log.length ∧
      W'.vars.map (fun vs => (vs.minBound, vs.maxBound, vs.with)) = [(1, 3, [(2, -8)]), (1, 3, [(1, -6), (2, -7)])] := by
    have : (match solverCheck missAt2 true 9 missStart with
      | .ok (r, W') => r && W'.log.length == missStart.log.length && W'.vars.map (fun vs => (vs.minBound, vs.maxBound, vs.with)) == [(1, 3, [(2, -8)]), (1, 3, [(1, -6), (2, -7)])]
      | .error _ => false) = true := by decide +kernel
    cases hh : solverCheck missAt2 true 9 missStart with
    | error e => rw [hh] at this; cases this
    | ok p =>
      obtain ⟨r, W'⟩ := p
      rw [hh] at this
      simp only [Bool.and_eq_true, beq_iff_eq] at this
      exact ⟨W', by rw [this.1.1], this.1.2, this.2⟩
  obtain ⟨W', h1, h2, h3⟩ := hx
  rcases h missAt2 missStart W' 0 0 1 (missStart.book.cs[0]?.getD { con := .disjoint 0 [] }) 5 _ ([(1, 0)], 0) ([(1, 1)], 0)
    (fun _ => 2) true true 9 (fun _ _ _ _ h => h) ⟨6, _, by decide, tryRun_getD (by decide +kernel)⟩ (by decide +kernel) (by decide +kernel) (by decide +kernel) hk
    (by decide) rfl rfl ⟨(1, 0), by simp, by decide +kernel⟩ (by rw [hl, hu]; decide) (by rw [hl, hu]; decide) (by rw [hl, hu]; decide) h1 with ⟨e, he, l, a, -⟩ | ⟨cl, log, a, b, -⟩
  · rw [List.mem_singleton] at he
    subst he
    unfold MovesBound at a
    rw [if_pos (by decide), hu] at a
    obtain ⟨vs, e1, e2⟩ := a
    have e3 := congrArg (fun x : List (Int × Int × List (Int × Int)) => x[0]?) h3
    dsimp only at e1 e3
    rw [List.getElem?_map, e1] at e3
    simp only [Option.map_some, List.getElem?_cons_zero, Option.some.injEq, Prod.mk.injEq] at e3
    obtain ⟨f1, f2, f3⟩ := e3
    rw [f1, f2, f3] at e2
    simp at e2
  · have k1 := a.length_le
    have k2 := b.length_le
    rw [List.length_cons] at k1
    omega

end Clingcon.Props
