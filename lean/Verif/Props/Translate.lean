import Verif.Props.Sum
import Verif.Proof.TranslateMinimize

/-! The translation of linear constraints and objectives: properties C25 to C28. -/
namespace Clingcon.Props
open Clingcon Clingcon.Spec

variable {cc : CC} {tc : TConf} {β : Nat → Bool} {σ : Nat → Int} {W W' : World} {lit rhs slack : Int} {es : List (Int × Nat)} {k k' n : Nat} {r : Bool × Bool} {b : Bool} {c : CState}

theorem loF_eq : loF (frame W) = lowerOf W := by funext v; exact lowerOf_eq.symm
theorem upF_eq : upF (frame W) = upperOf W := by funext v; exact upperOf_eq.symm

theorem within_of (h : ∀ e ∈ es, lowerOf W e.2 ≤ σ e.2 ∧ σ e.2 ≤ upperOf W e.2) : Within (loF (frame W)) (upF (frame W)) σ es := by
  rw [loF_eq, upF_eq]; exact h

theorem slack_iff : devSum (loF (frame W)) (upF (frame W)) σ es ≤ rhs - leastSum (lowerOf W) (upperOf W) es ↔ wsum σ es ≤ rhs := by
  rw [devSum_eq, loF_eq, upF_eq]; omega

/-- **C25** If the translation to a weight constraint reports that the linear constraint is no longer needed, then the linear
constraint follows from what was posted: for all values within the bounds such that order literals have their meaning, if the
literal is true, then the constraint holds. -/
theorem C25_weight_enforced (he : EnvSound cc β) (h0 : cc.level = 0) (hi : Inv β σ W) (hne : ∀ e ∈ es, e.1 ≠ 0)
    (hb : ∀ e ∈ es, lowerOf W e.2 ≤ σ e.2 ∧ σ e.2 ≤ upperOf W e.2)
    (h : weightTranslate cc lit (rhs - leastSum (lowerOf W) (upperOf W) es) es W = .ok ((b, true), W'))
    (hr : Respects β σ W'.log) (hp : AllHold β W'.log) (hf : FactsHold σ W') (ht : litTrue β lit) : wsum σ es ≤ rhs :=
  slack_iff.mp (((tr_weightTranslate (m := true) he h0 hne (within_of hb) (fun h => by cases h) W _ W' h).2 ⟨hi, rfl⟩ ⟨hr, fun _ => ⟨hp, hf⟩⟩).2.2 rfl ht)

/-- **C25** The weight constraint excludes no values that satisfy the linear constraint or falsify its literal. -/
theorem C25_weight_exact (he : EnvSound cc β) (h0 : cc.level = 0) (hi : Inv β σ W) (hne : ∀ e ∈ es, e.1 ≠ 0)
    (hb : ∀ e ∈ es, lowerOf W e.2 ≤ σ e.2 ∧ σ e.2 ≤ upperOf W e.2)
    (h : weightTranslate cc lit (rhs - leastSum (lowerOf W) (upperOf W) es) es W = .ok (r, W'))
    (hs : litTrue β lit → wsum σ es ≤ rhs) (hr : Respects β σ W'.log) : AllHold β W'.log ∧ FactsHold σ W' ∧ Inv β σ W' := by
  have := ((tr_weightTranslate (m := false) he h0 hne (within_of hb) (fun _ ht => slack_iff.mpr (hs ht)) W _ W' h).2 ⟨hi, rfl⟩ ⟨hr, fun h => by cases h⟩).1.1
  exact ⟨this.good.posted, this.good.facts, this⟩

theorem range_eq : rhs - greatestSum (lowerOf W) (upperOf W) es = (rhs - leastSum (lowerOf W) (upperOf W) es) - rngSum (loF (frame W)) (upF (frame W)) es := by
  rw [rngSum_eq, loF_eq, upF_eq]; ring

/-- **C26** The linear constraint follows from the clauses it is translated to. -/
theorem C26_clauses_enforced (he : EnvSound cc β) (h0 : cc.level = 0) (hi : Inv β σ W) (hl : lit ≠ 0) (hne : ∀ e ∈ es, e.1 ≠ 0)
    (hb : ∀ e ∈ es, lowerOf W e.2 ≤ σ e.2 ∧ σ e.2 ≤ upperOf W e.2)
    (h : clauseTranslate cc k lit es (rhs - leastSum (lowerOf W) (upperOf W) es) (rhs - greatestSum (lowerOf W) (upperOf W) es) false W = .ok (true, W'))
    (hr : Respects β σ W'.log) (hp : AllHold β W'.log) (hf : FactsHold σ W') (ht : litTrue β lit) : wsum σ es ≤ rhs :=
  slack_iff.mp (((tr_clauseTranslate (m := true) he h0 hl hne (within_of hb) range_eq (fun h => by cases h) W _ W' h).2 ⟨hi, rfl⟩ ⟨hr, fun _ => ⟨hp, hf⟩⟩).2 rfl rfl ht)

/-- **C26** The clauses exclude no values that satisfy the linear constraint or falsify its literal. -/
theorem C26_clauses_exact {lo : Bool} (he : EnvSound cc β) (h0 : cc.level = 0) (hi : Inv β σ W) (hl : lit ≠ 0) (hne : ∀ e ∈ es, e.1 ≠ 0)
    (hb : ∀ e ∈ es, lowerOf W e.2 ≤ σ e.2 ∧ σ e.2 ≤ upperOf W e.2)
    (h : clauseTranslate cc k lit es (rhs - leastSum (lowerOf W) (upperOf W) es) (rhs - greatestSum (lowerOf W) (upperOf W) es) lo W = .ok (b, W'))
    (hs : litTrue β lit → wsum σ es ≤ rhs) (hr : Respects β σ W'.log) : AllHold β W'.log ∧ FactsHold σ W' ∧ Inv β σ W' := by
  have := ((tr_clauseTranslate (m := false) he h0 hl hne (within_of hb) range_eq (fun _ ht => slack_iff.mpr (hs ht)) W _ W' h).2 ⟨hi, rfl⟩ ⟨hr, fun h => by cases h⟩).1.1
  exact ⟨this.good.posted, this.good.facts, this⟩

theorem translateOne_sum (hcs : W.book.cs[n]? = some c) (hk : c.con = .sum lit rhs es) {q : (Bool × Bool) × List Constr}
    (h : translateOne cc tc k n W = .ok (q, W')) : sumTranslate cc tc k c lit rhs es W = .ok (q.1, W') := by
  unfold translateOne at h
  obtain ⟨c', W1, h1, h2⟩ := SM.bind_ok h
  obtain ⟨⟨hc', -⟩, rfl⟩ := getCS_iff.mp h1
  rw [hcs] at hc'
  injection hc' with hc'
  subst hc'
  rw [hk] at h2
  obtain ⟨p, W2, h3, h4⟩ := SM.bind_ok h2
  obtain ⟨rfl, rfl⟩ := pure_iff.mp h4
  exact h3

/-- **C25**, **C26** If a linear constraint in a reachable state is translated and reported to be no longer needed, whatever kind of
translation was chosen, then it follows from what was posted. -/
theorem C26_translate_enforced {q : (Bool × Bool) × List Constr} (he : EnvSound cc β) (h0 : cc.level = 0) (hi : Inv β σ W) (hl : lit ≠ 0) (hne : ∀ e ∈ es, e.1 ≠ 0)
    (hb : ∀ e ∈ es, lowerOf W e.2 ≤ σ e.2 ∧ σ e.2 ≤ upperOf W e.2) (hw : Reach W) (hq : W.noChanges) (hcs : W.book.cs[n]? = some c) (ha : c.alive = true)
    (hin : c.removableAt W.level = false) (hk : c.con = .sum lit rhs es) (h : translateOne cc tc k n W = .ok (q, W')) (hx : q.1 = (true, true))
    (hr : Respects β σ W'.log) (hp : AllHold β W'.log) (hf : FactsHold σ W') (ht : litTrue β lit) : wsum σ es ≤ rhs := by
  obtain ⟨g1, g2⟩ := C21_sums_exact hw hq hcs ha hin hk
  rw [← loF_eq, ← upF_eq] at g1 g2
  exact ((tr_sumTranslate (m := true) he h0 hl hne (within_of hb) g1 g2 (fun h => by cases h) W _ W' (translateOne_sum hcs hk h)).2 ⟨hi, rfl⟩ ⟨hr, fun _ => ⟨hp, hf⟩⟩).2 hx ht

/-- **C25**, **C26** Translating a linear constraint in a reachable state excludes no values that satisfy the constraint or falsify its
literal. -/
theorem C26_translate_exact {q : (Bool × Bool) × List Constr} (he : EnvSound cc β) (h0 : cc.level = 0) (hi : Inv β σ W) (hl : lit ≠ 0) (hne : ∀ e ∈ es, e.1 ≠ 0)
    (hb : ∀ e ∈ es, lowerOf W e.2 ≤ σ e.2 ∧ σ e.2 ≤ upperOf W e.2) (hw : Reach W) (hq : W.noChanges) (hcs : W.book.cs[n]? = some c) (ha : c.alive = true)
    (hin : c.removableAt W.level = false) (hk : c.con = .sum lit rhs es) (h : translateOne cc tc k n W = .ok (q, W'))
    (hs : litTrue β lit → wsum σ es ≤ rhs) (hr : Respects β σ W'.log) : AllHold β W'.log ∧ FactsHold σ W' ∧ Inv β σ W' := by
  obtain ⟨g1, g2⟩ := C21_sums_exact hw hq hcs ha hin hk
  rw [← loF_eq, ← upF_eq] at g1 g2
  have := ((tr_sumTranslate (m := false) he h0 hl hne (within_of hb) g1 g2 (fun _ => hs) W _ W' (translateOne_sum hcs hk h)).2 ⟨hi, rfl⟩ ⟨hr, fun h => by cases h⟩).1.1
  exact ⟨this.good.posted, this.good.facts, this⟩

/-- **C25**, **C26** The order literals that are introduced can be given their meaning for all values without changing the truth value of
any literal that existed before. -/
theorem C26_translate_extends {q : (Bool × Bool) × List Constr} (hn : 0 < W.nextLit) (hlog : ∀ l v k, SEv.order l v k ∈ W.log → |l| < W.nextLit) (hw : Respects β σ W.log)
    (hcs : W.book.cs[n]? = some c) (hk : c.con = .sum lit rhs es) (h : translateOne cc tc k n W = .ok (q, W')) :
    ∃ β', agreeBelow W.nextLit β β' ∧ Respects β' σ W'.log := by
  obtain ⟨-, new, e, -, hx⟩ := (Closed.sumTranslate (fresh_closed (σ := σ) (n0 := W.nextLit) (P := fun _ => True) (fun _ _ _ _ => trivial))).pres W _ W'
    (translateOne_sum hcs hk h) hn le_rfl
  obtain ⟨β', h1, h2⟩ := hx β trivial
  refine ⟨β', h1, fun l v k hm => ?_⟩
  rw [e, List.mem_append] at hm
  rcases hm with hm | hm
  · exact h2 l v k hm
  · rw [← litTrue_congr h1 (hlog _ _ _ hm)]; exact hw _ _ _ hm

/-- **C27** If the estimate succeeds for a maximum, then fewer clauses than that are posted, even if posting one of them fails. -/
theorem C27_clause_limit {maximum : Int} {lo : Bool} (hne : ∀ e ∈ es, e.1 ≠ 0) (hb : ∀ e ∈ es, lowerOf W e.2 ≤ upperOf W e.2)
    (he : clauseEstimate k es (rhs - leastSum (lowerOf W) (upperOf W) es) (rhs - greatestSum (lowerOf W) (upperOf W) es) maximum W = .ok (true, W))
    (h : clauseTranslate cc k' lit es (rhs - leastSum (lowerOf W) (upperOf W) es) (rhs - greatestSum (lowerOf W) (upperOf W) es) lo W = .ok (b, W')) :
    clauseCount W'.log < clauseCount W.log + maximum :=
  translate_count (by rw [loF_eq, upF_eq]; exact hb) hne range_eq he h

theorem litRange_count {v : Nat} : ∀ {n : Nat} {i : Int} {ls : List Int} {W W' : World}, litRange cc v n i W = .ok (ls, W') → clauseCount W'.log = clauseCount W.log := by
  intro n
  induction n with
  | zero => intro i ls W W' h; obtain ⟨-, rfl⟩ := pure_iff.mp h; rfl
  | succ n ih =>
    intro i ls W W' h
    unfold litRange at h
    obtain ⟨l, W1, h1, h2⟩ := SM.bind_ok h
    obtain ⟨l, W2, h3, h4⟩ := SM.bind_ok h2
    obtain ⟨-, rfl⟩ := pure_iff.mp h4
    rw [ih h3, getLiteral_count h1]

theorem weightLits_count : ∀ {es : List (Int × Nat)} {ws : List (Int × Int)} {W W' : World}, weightLits cc slack es W = .ok (ws, W') → clauseCount W'.log = clauseCount W.log := by
  intro es
  induction es with
  | nil => intro ws W W' h; obtain ⟨-, rfl⟩ := pure_iff.mp h; rfl
  | cons e es ih =>
    intro ws W W' h
    obtain ⟨co, v⟩ := e
    unfold weightLits at h
    obtain ⟨vs, W1, h1, h2⟩ := SM.bind_ok h
    obtain ⟨-, rfl⟩ := getVar_iff.mp h1
    split_ifs at h2
    all_goals
      obtain ⟨u, W2, h3, h4⟩ := SM.bind_ok h2
      obtain rfl := Reads.assertS.reads _ _ _ h3
      obtain ⟨u, W3, h5, h6⟩ := SM.bind_ok h4
      obtain rfl := Reads.assertS.reads _ _ _ h5
      obtain ⟨ls, W4, h7, h8⟩ := SM.bind_ok h6
      obtain ⟨ws, W5, h9, h10⟩ := SM.bind_ok h8
      obtain ⟨-, rfl⟩ := pure_iff.mp h10
      rw [ih h9, litRange_count h7]

/-- **C27** Translating a linear constraint in a reachable state posts at most as many clauses as configured, and none if too many clauses have
been posted already. -/
theorem C27_translate_limit {q : (Bool × Bool) × List Constr} (hne : ∀ e ∈ es, e.1 ≠ 0) (hb : ∀ e ∈ es, lowerOf W e.2 ≤ upperOf W e.2)
    (hw : Reach W) (hq : W.noChanges) (hcs : W.book.cs[n]? = some c) (ha : c.alive = true) (hin : c.removableAt W.level = false)
    (hk : c.con = .sum lit rhs es) (h : translateOne cc tc k n W = .ok (q, W')) :
    clauseCount W'.log ≤ clauseCount W.log + tc.clauseLimit ∧ (tc.clauseTotal ≤ tc.translated W.log → clauseCount W'.log = clauseCount W.log) := by
  have h := translateOne_sum hcs hk h
  obtain ⟨g1, g2⟩ := C21_sums_exact hw hq hcs ha hin hk
  have same : ∀ {W1 : World}, clauseCount W1.log = clauseCount W.log →
      clauseCount W1.log ≤ clauseCount W.log + tc.clauseLimit ∧ (tc.clauseTotal ≤ tc.translated W.log → clauseCount W1.log = clauseCount W.log) :=
    fun e => ⟨by omega, fun _ => e⟩
  unfold sumTranslate at h
  obtain ⟨f, W1, h1, h2⟩ := SM.bind_ok h
  obtain ⟨-, rfl⟩ := qFalse_iff.mp h1
  split_ifs at h2 with hc1
  · obtain ⟨-, rfl⟩ := pure_iff.mp h2; exact same rfl
  obtain ⟨u, W2, h3, h4⟩ := SM.bind_ok h2
  obtain rfl := Reads.assertS.reads _ _ _ h3
  obtain ⟨p, W3, h5, h6⟩ := SM.bind_ok h4
  obtain rfl := reads_ratioParts.reads _ _ _ h5
  split_ifs at h6 with hc2
  · unfold weightTranslate at h6
    obtain ⟨ws, W4, h7, h8⟩ := SM.bind_ok h6
    have e1 := weightLits_count h7
    split_ifs at h8
    · obtain ⟨ret, W5, h9, h10⟩ := SM.bind_ok h8
      obtain ⟨-, rfl⟩ := pure_iff.mp h10
      refine same ?_
      rw [← e1]
      unfold addWeight at h9
      simp only [smok] at h9
      obtain ⟨t, W6, ⟨-, rfl⟩, f, W7, ⟨-, rfl⟩, h9⟩ := h9
      rcases h9 with ⟨-, -, rfl⟩ | ⟨-, ⟨-, -, rfl⟩ | ⟨-, u, W8, rfl, -, rfl⟩⟩ <;> rfl
    · obtain ⟨-, rfl⟩ := pure_iff.mp h8; exact same e1
  obtain ⟨W4, W5, h7, h8⟩ := SM.bind_ok h6
  obtain ⟨rfl, rfl⟩ := get_iff.mp h7
  split_ifs at h8 with hc3
  · obtain ⟨t, W6, h9, h10⟩ := SM.bind_ok h8
    obtain rfl := reads_clauseEstimate.reads _ _ _ h9
    cases t with
    | false =>
      rw [if_neg (by simp)] at h10
      obtain ⟨-, rfl⟩ := pure_iff.mp h10; exact same rfl
    | true =>
      rw [if_pos rfl] at h10
      obtain ⟨ret, W7, h11, h12⟩ := SM.bind_ok h10
      obtain ⟨-, rfl⟩ := pure_iff.mp h12
      rw [g1, g2] at h9 h11
      have := C27_clause_limit hne hb h9 h11
      exact ⟨by omega, fun hh => by omega⟩
  · obtain ⟨-, rfl⟩ := pure_iff.mp h8; exact same rfl

/-- **C28** If an objective is translated, then the value of the objective of the Boolean solver grows by the value of the objective function;
otherwise, it stays the same. (`adjust` is the negated constant part, see `C30_law`.) -/
theorem C28_objective {adjust : Int} (tt : litTrue β 1) (hi : Inv β σ W) (h : minimizeTranslate cc tc adjust es W = .ok (r, W')) (hr : Respects β σ W'.log) :
    r.1 = true ∧ minimizeCost β W'.log = minimizeCost β W.log + (if r.2 then wsum σ es - adjust else 0) ∧ Inv β σ W' := by
  obtain ⟨h1, h2⟩ := (tr_minimizeTranslate (m := false) tt W _ W' h).2 ⟨⟨hi, rfl⟩, rfl⟩ ⟨hr, fun h => by cases h⟩
  refine ⟨h1, ?_⟩
  cases hx : r.2 with
  | true => rw [hx] at h2; rw [if_pos rfl] at h2 ⊢; exact ⟨h2.2, h2.1.1⟩
  | false => rw [hx] at h2; rw [if_neg (by simp)] at h2 ⊢; exact ⟨by rw [add_zero]; exact h2.2, h2.1.1⟩

/-! ### Concrete cases -/

/-- `2x - y ≤ 3` for `x` in `[0, 3]`, `y` in `[0, 2]` and literal `5`. -/
def linear : World := (tryRun [.addVar 0 3, .addVar 0 2, .addConstraint (.sum 5 3 [(2, 0), (-1, 1)])] (World.init 8)).getD (World.init 8)

/-- Translation to weight constraints or clauses. -/
def toWeights : TConf where
  ratioOk := fun _ _ => true
  clauseTotal := 100
  clauseLimit := 10
  distinctLimit := 100
  translateMinimize := 100
  literalsOnly := false
  orderClauses := true
  sort := id
  translated := clauseCount
def toClauses : TConf := { toWeights with ratioOk := fun _ _ => false }

/-- The terms are `[x>0]*2 + [x>1]*2 + [x>2]*2 + [y≤0] + [y≤1] ≤ 5`. -/
example : (translateOne idle toWeights 100 0 linear).toOption.map (fun p => (p.1, p.2.log.filter (fun e => match e with
    | .weight .. => true | .order .. => true | _ => false))) =
  some (((true, true), []), [.weight 5 [(8, 2), (9, 2), (10, 2), (-11, 1), (-12, 1)] 5 1, .order (-12) 1 1, .order (-11) 1 0, .order (-10) 0 2, .order (-9) 0 1, .order (-8) 0 0]) := by
  decide +kernel

/-- The clauses are `-5 ∨ x ≤ 2` and `-5 ∨ x ≤ 1 ∨ y > 0`; the last event comes first. -/
example : (translateOne idle toClauses 100 0 linear).toOption.map (fun p => (p.1, p.2.log.filter (fun e => match e with
    | .clause .. => true | .order .. => true | _ => false))) =
  some (((true, true), []), [.clause [-5, -9, 10], .order (-10) 1 0, .order (-9) 0 1, .clause [-5, -8], .order (-8) 0 2]) := by
  decide +kernel

example : (clauseEstimate 100 [(2, 0), (-1, 1)] 5 (-3) 10 linear).toOption.map (fun p => p.1) = some true := by decide +kernel

theorem linear_inv {β : Nat → Bool} (h : 0 ≤ σ 0 ∧ σ 0 ≤ 3) (h' : 0 ≤ σ 1 ∧ σ 1 ≤ 2) : Inv β σ linear := by
  refine fresh_inv (by decide +kernel) (by decide +kernel) (by decide +kernel) (by decide +kernel) (by decide +kernel) (fun v vs hv => ?_)
  have e : linear.vars = [{ lower := 0, upper := 3 }, { lower := 0, upper := 2 }] := by decide +kernel
  rw [e] at hv
  match v, hv with
  | 0, hv => injection hv with hv; subst hv; exact h
  | 1, hv => injection hv with hv; subst hv; exact h'
  | (v + 2), hv => cases hv

theorem linear_reach : Reach linear := ⟨8, _, by decide, tryRun_getD (by decide +kernel)⟩
theorem linear_quiet : linear.noChanges := by constructor <;> decide +kernel
theorem linear_state : ∃ c, linear.book.cs[0]? = some c ∧ c.alive = true ∧ c.removableAt linear.level = false ∧ c.con = .sum 5 3 [(2, 0), (-1, 1)] :=
  ⟨linear.book.cs[0]?.getD { con := .disjoint 0 [] }, by decide +kernel⟩

/-- The hypotheses of the theorems on the state are met. -/
example : Reach linear ∧ linear.noChanges ∧ (∃ c, linear.book.cs[0]? = some c ∧ c.alive = true ∧ c.removableAt linear.level = false ∧ c.con = .sum 5 3 [(2, 0), (-1, 1)]) ∧
    Inv (fun _ => true) (fun v => if v = 0 then 2 else 1) linear ∧ EnvSound idle (fun _ => true) :=
  ⟨linear_reach, linear_quiet, linear_state, linear_inv (by decide) (by decide), idle_sound rfl⟩

example : ∀ e ∈ [((2 : Int), 0), (-1, 1)], lowerOf linear e.2 ≤ (fun v => if v = 0 then (2 : Int) else 1) e.2 ∧ (fun v => if v = 0 then (2 : Int) else 1) e.2 ≤ upperOf linear e.2 := by
  decide +kernel

/-- The objective `2x - y + 4` for `x` in `[0, 3]` and `y` in `[0, 2]`. -/
example : (minimizeTranslate idle toWeights (-4) [(2, 0), (-1, 1)] linear).toOption.map (fun p => (p.1, p.2.log.filter (fun e => match e with
    | .minimize .. => true | _ => false))) =
  some ((true, true), [.minimize 12 (-1), .minimize 11 (-1), .minimize 1 0, .minimize 10 2, .minimize 9 2, .minimize 8 2, .minimize 1 0, .minimize 1 4]) := by
  decide +kernel

end Clingcon.Props
