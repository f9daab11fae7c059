import Verif.Props.Distinct
import Verif.Proof.Disjoint

/-! Propagation of disjoint constraints: property C35. -/
namespace Clingcon.Props
open Clingcon Clingcon.Spec

variable {cc : CC} {β : Nat → Bool} {σ : Nat → Int} {W W' : World} {n : Nat} {ck r : Bool} {clit : Int} {es : List (Int × Nat)} {c : CState}

/-- **C35** (partial) Every clause posted while propagating a disjoint constraint, and every literal that is made a fact, is satisfied
by every assignment in which the intervals are pairwise disjoint whenever the literal of the constraint is true; the state stays
faithful. In the full property, nothing is assumed about the literal of the constraint; here it is true when propagation starts or not
assigned on the top level until it ends (see `C35_unsound`). It is also assumed that the current bounds are justified by literals. -/
theorem C35_propagate_sound_partial (he : EnvSound cc β) (hv : EnvMono cc) (hi : Inv β σ W) (hc : clit ≠ 0)
    (hw : Reach W) (hq : W.noChanges) (hcs : W.book.cs[n]? = some c) (ha : c.alive = true) (hin : c.removableAt W.level = false)
    (hk : c.con = .disjoint clit es) (h1 : ∀ e ∈ es, 1 ≤ e.1) (hb : BoundLits cc W) (h : propagateCS cc ck n W = .ok (r, W'))
    (hf : cc.isTrue W.log clit = true ∨ ∀ new, cc.isFixed (new ++ W.log) clit = false)
    (hs : litTrue β clit → pairwiseDisjoint (es.map (fun e => (σ e.2, e.1))))
    (hr : Respects β σ W'.log) : AllHold β W'.log ∧ FactsHold σ W' ∧ Inv β σ W' := by
  unfold propagateCS at h
  obtain ⟨c', W1, h2, h3⟩ := SM.bind_ok h
  obtain ⟨⟨hc', -⟩, rfl⟩ := getCS_iff.mp h2
  rw [hcs] at hc'
  injection hc' with hc'
  subst hc'
  rw [hk] at h3
  have := disjointPropagate_sound (m := false) he hv hc hi hw.nested hb (fixedTrue_of he hv hf) h1 hs (fun c'' h4 => ?_) h3 ⟨hr, fun h => by cases h⟩
  · exact ⟨this.good.posted, this.good.facts, this⟩
  · rw [hcs] at h4
    injection h4 with h4
    subst h4
    have h5 := counted_quiet hw hq hcs ha hin
    unfold Counted Mid at h5
    rw [hk] at h5
    exact h5

/-- A Boolean solver on the top level that knows `x ≤ 1` and `y ≤ 1` (the negations of the literals 6 and 7) and makes the literal 5
false as soon as the clause `¬5` is added, as clasp does. -/
def tight : CC where
  conf := {}
  atom := fun log a => if a = 5 then (if log.contains (.clause [-5]) then some false else none) else
    if a = 1 then some true else if a = 6 ∨ a = 7 then some false else none
  fix := fun log a => if a = 5 then log.contains (.clause [-5]) else decide (a = 1 ∨ a = 6 ∨ a = 7)
  lev := fun _ _ => 0
  level := 0
  accept := fun _ => true

/-- `x` and `y` in `[1, 3]` become `1` on the top level where the literal 5 of the constraint that the intervals `[x, x]` and `[y, y]`
are disjoint is not assigned. -/
def tightStart : World := (tryRun [.addVar 1 3, .addVar 1 3, .addConstraint (.disjoint 5 [(1, 0), (1, 1)]), .literal tight 0 1, .literal tight 1 1,
  .propagate tight [-6, -7]] (World.init 6)).getD (World.init 6)
def tightEnd : World := (tryRun [.check tight false 9] tightStart).getD (World.init 6)

theorem tight_sound : EnvSound tight (fun a => decide (a = 1)) := by
  refine ⟨rfl, fun log l _ h _ => ?_, fun log l _ h _ => ?_⟩
  · unfold CC.isTrue CC.value tight at h
    unfold litTrue
    dsimp only at h
    by_cases h5 : l.natAbs = 5 <;> by_cases h1 : l.natAbs = 1 <;> by_cases h6 : (l.natAbs = 6 ∨ l.natAbs = 7) <;> by_cases hp : l > 0 <;> simp_all
  · unfold CC.isFalse CC.value tight at h
    unfold litTrue
    dsimp only at h
    by_cases h5 : l.natAbs = 5 <;> by_cases h1 : l.natAbs = 1 <;> by_cases h6 : (l.natAbs = 6 ∨ l.natAbs = 7) <;> by_cases hp : l > 0 <;> simp_all

theorem tight_mono : EnvMono tight := by
  intro e log a t h
  unfold tight at h ⊢
  dsimp only at h ⊢
  by_cases h5 : a = 5
  · rw [if_pos h5] at h ⊢
    split_ifs at h with hc
    rw [← h, if_pos]
    rw [List.contains_cons, hc, Bool.or_true]
  · rw [if_neg h5] at h ⊢
    exact h

/-- **C35** The full property is violated by the code: the literal of a disjoint constraint is left out of clauses if it is assigned on
the top level, no matter its truth value (constraints.cc:1669-1672). If two intervals overlap on the top level, the propagation of lower
bounds makes the literal false, and the propagation of upper bounds, which follows, adds the empty clause: the problem becomes
unsatisfiable although it has a solution in which the literal is false. -/
theorem C35_unsound : ¬ ∀ (cc : CC) (β : Nat → Bool) (σ : Nat → Int) (W W' : World) (r ck : Bool) (fuel : Nat),
    EnvSound cc β → EnvMono cc → Reach W → Inv β σ W →
    (∀ c ∈ W.book.cs, (∃ es, c.con = .disjoint c.con.lit es) ∧ (litTrue β c.con.lit → conHolds σ W.book.minimizeBound c.con)) →
    solverCheck cc ck fuel W = .ok (r, W') → Respects β σ W'.log → AllHold β W'.log := by
  intro h
  obtain ⟨b, hb⟩ := run_one (op := .check tight false 9) (W := tightStart) (W' := tightEnd) (tryRun_getD (by decide +kernel))
  have := h tight (fun a => decide (a = 1)) (fun _ => 1) tightStart tightEnd b false 9 tight_sound tight_mono
    ⟨6, _, by decide, tryRun_getD (by decide +kernel)⟩ (inv_of (by decide +kernel)) ?_ hb (respects_of (by decide +kernel))
  · have h2 := this (.clause []) (by decide +kernel)
    obtain ⟨l, h3, -⟩ := h2
    cases h3
  · intro c hc
    have : c.con = .disjoint 5 [(1, 0), (1, 1)] := by
      have : tightStart.book.cs.all (fun c => c.con == .disjoint 5 [(1, 0), (1, 1)]) = true := by decide +kernel
      simpa using List.all_eq_true.mp this c hc
    rw [this]
    exact ⟨⟨_, rfl⟩, fun hl => absurd (litB_iff.mpr hl) (by decide)⟩

/-! ### A concrete case -/

/-- `x` in `[1, 3]` and `y` in `[1, 9]` are the starts of intervals of sizes 3 and 2; `x ≤ 1` is decided and the literal 5 is true; a first
clause was refused. -/
def packed (accept : Bool) : CC where
  conf := {}
  atom := fun _ a => if a = 1 ∨ a = 5 then some true else if a = 6 then some false else none
  fix := fun _ a => decide (a = 1 ∨ a = 5)
  lev := fun _ a => if a = 6 then 1 else 0
  level := 1
  accept := fun _ => accept

def packedStart : World := (tryRun [.addVar 1 3, .addVar 1 9, .addConstraint (.disjoint 5 [(3, 0), (2, 1)]), .check idle false 9, .literal (packed true) 0 1,
  .propagate (packed true) [-6], .check (packed false) false 9] (World.init 6)).getD (World.init 6)

/-- The bounds of a concrete state are justified by literals. -/
def boundB (cc : CC) (W : World) : Bool := W.vars.all (fun vs =>
  (decide (¬ vs.minBound < vs.lower) || vs.with.any (fun p => decide (p.1 = vs.lower - 1) && cc.isFalse W.log p.2)) &&
  (decide (¬ vs.upper < vs.maxBound) || vs.with.any (fun p => decide (p.1 = vs.upper) && cc.isTrue W.log p.2)))

theorem boundLits_of (h : boundB cc W = true) : BoundLits cc W := by
  intro v vs hv
  have := List.all_eq_true.mp h vs (List.mem_of_getElem? hv)
  simp only [Bool.and_eq_true, Bool.or_eq_true, decide_eq_true_eq, List.any_eq_true] at this
  obtain ⟨h1, h2⟩ := this
  refine ⟨fun hl => ?_, fun hu => ?_⟩
  · obtain h1 | ⟨⟨k, l⟩, hp, rfl, ht⟩ := h1
    · exact absurd hl h1
    · exact ⟨l, hp, ht⟩
  · obtain h2 | ⟨⟨k, l⟩, hp, rfl, ht⟩ := h2
    · exact absurd hu h2
    · exact ⟨l, hp, ht⟩

/-- The hypotheses of `C35_propagate_sound_partial` are met for `x = 1` and `y = 5`, and the clause implying `y > 3` is added. -/
example : Reach packedStart ∧ packedStart.noChanges ∧ Inv (fun a => decide (a = 1 ∨ a = 5 ∨ a = 7)) (fun v => if v = 0 then 1 else 5) packedStart ∧
    (∃ c, packedStart.book.cs[0]? = some c ∧ c.alive = true ∧ c.removableAt packedStart.level = false ∧ c.con = .disjoint 5 [(3, 0), (2, 1)]) ∧
    BoundLits (packed true) packedStart ∧ (packed true).isTrue packedStart.log 5 = true ∧
    (propagateCS (packed true) false 0 packedStart).toOption.map (fun p => (p.1, p.2.log.head?)) = some (true, some (.clause [6, -1, 7])) :=
  ⟨⟨6, _, by decide, tryRun_getD (by decide +kernel)⟩, by constructor <;> decide +kernel, inv_of (by decide +kernel),
    ⟨packedStart.book.cs[0]?.getD { con := .disjoint 0 [] }, by decide +kernel⟩, boundLits_of (by decide +kernel), by decide +kernel, by decide +kernel⟩

end Clingcon.Props
