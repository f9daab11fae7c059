import Verif.Props.Sum
import Verif.Proof.Distinct
import Verif.Proof.Concrete
import Verif.Spec.Constraints

/-! Propagation of distinct constraints: property C31. -/
namespace Clingcon.Props
open Clingcon Clingcon.Spec

variable {cc : CC} {β : Nat → Bool} {σ : Nat → Int} {W W' : World} {n : Nat} {ck r : Bool} {clit : Int} {es : List (List (Int × Nat) × Int)} {c : CState}

theorem isTrue_append (hv : EnvMono cc) {log : List SEv} {l : Int} (h : cc.isTrue log l = true) : ∀ new, cc.isTrue (new ++ log) l = true
  | [] => h
  | _ :: new => hv.isTrue (isTrue_append hv h new)

theorem fixedTrue_of (he : EnvSound cc β) (hv : EnvMono cc) {log : List SEv}
    (h : cc.isTrue log clit = true ∨ ∀ new, cc.isFixed (new ++ log) clit = false) : FixedTrue cc β clit log := by
  intro new h1 h2
  rcases h with h | h
  · exact he.isTrue _ _ h1 (isTrue_append hv h new) (.inl h2)
  · rw [h new] at h2; cases h2

/-- **C31** (partial) Every clause posted while propagating a distinct constraint, and every literal that is made a fact, is
satisfied by every assignment in which the elements have pairwise different values whenever the literal of the constraint is
true; the state stays faithful. In the full property, nothing is assumed about the literal of the constraint; here it is true
when propagation starts or not assigned on the top level until it ends (see `C31_unsound`). -/
theorem C31_propagate_sound_partial (he : EnvSound cc β) (hv : EnvMono cc) (hi : Inv β σ W) (hc : clit ≠ 0)
    (hw : Reach W) (hq : W.noChanges) (hcs : W.book.cs[n]? = some c) (ha : c.alive = true) (hin : c.removableAt W.level = false)
    (hk : c.con = .distinct clit es) (h : propagateCS cc ck n W = .ok (r, W'))
    (hf : cc.isTrue W.log clit = true ∨ ∀ new, cc.isFixed (new ++ W.log) clit = false)
    (hs : litTrue β clit → pairwiseNe (es.map (fun e => wsum σ e.1 + e.2)))
    (hr : Respects β σ W'.log) : AllHold β W'.log ∧ FactsHold σ W' ∧ Inv β σ W' := by
  unfold propagateCS at h
  obtain ⟨c', W1, h1, h2⟩ := SM.bind_ok h
  obtain ⟨⟨hc', -⟩, rfl⟩ := getCS_iff.mp h1
  rw [hcs] at hc'
  injection hc' with hc'
  subst hc'
  rw [hk] at h2
  have := distinctPropagate_sound (m := false) he hc hi (fixedTrue_of he hv hf) hs (fun c'' h3 => ?_) h2 ⟨hr, fun h => by cases h⟩
  · exact ⟨this.good.posted, this.good.facts, this⟩
  · rw [hcs] at h3
    injection h3 with h3
    subst h3
    rw [show loF (frame W1) = lowerOf W1 from funext fun _ => lowerOf_eq.symm, show upF (frame W1) = upperOf W1 from funext fun _ => upperOf_eq.symm]
    exact ⟨hk, counted_quiet hw hq hcs ha hin⟩

theorem run_one {op : Op} (h : Run [op] W W') : ∃ r, op.exec W = .ok (r, W') := by
  cases h with
  | cons _ h1 h2 => cases h2; exact ⟨_, h1⟩

/-- A Boolean solver on the top level that knows `x ≤ 1` and `y ≤ 1` (the negations of the literals 6 and 7) and makes the literal 5
false as soon as the clause `¬5` (and false literals) is added, as clasp does. -/
def late : CC where
  conf := {}
  atom := fun log a => if a = 5 then (if log.contains (.clause [-5, -1]) then some false else none) else
    if a = 1 then some true else if a = 6 ∨ a = 7 then some false else none
  fix := fun log a => if a = 5 then log.contains (.clause [-5, -1]) else decide (a = 1 ∨ a = 6 ∨ a = 7)
  lev := fun _ _ => 0
  level := 0
  accept := fun _ => true

/-- `x` and `y` in `[1, 3]` become `1` on the top level where the literal 5 of `x ≠ y` is not assigned. -/
def lateStart : World := (tryRun [.addVar 1 3, .addVar 1 3, .addConstraint (.distinct 5 [([(1, 0)], 0), ([(1, 1)], 0)]), .literal late 0 1, .literal late 1 1,
  .propagate late [-6, -7]] (World.init 6)).getD (World.init 6)
def lateEnd : World := (tryRun [.check late false 9] lateStart).getD (World.init 6)

theorem late_sound : EnvSound late (fun a => decide (a = 1)) := by
  refine ⟨rfl, fun log l _ h _ => ?_, fun log l _ h _ => ?_⟩
  · unfold CC.isTrue CC.value late at h
    unfold litTrue
    dsimp only at h
    by_cases h5 : l.natAbs = 5 <;> by_cases h1 : l.natAbs = 1 <;> by_cases h6 : (l.natAbs = 6 ∨ l.natAbs = 7) <;> by_cases hp : l > 0 <;> simp_all
  · unfold CC.isFalse CC.value late at h
    unfold litTrue
    dsimp only at h
    by_cases h5 : l.natAbs = 5 <;> by_cases h1 : l.natAbs = 1 <;> by_cases h6 : (l.natAbs = 6 ∨ l.natAbs = 7) <;> by_cases hp : l > 0 <;> simp_all

theorem late_mono : EnvMono late := by
  intro e log a t h
  unfold late at h ⊢
  dsimp only at h ⊢
  by_cases h5 : a = 5
  · rw [if_pos h5] at h ⊢
    split_ifs at h with hc
    rw [← h, if_pos]
    rw [List.contains_cons, hc, Bool.or_true]
  · rw [if_neg h5] at h ⊢
    exact h

/-- **C31** The full property is violated by the code: the literal of a distinct constraint is left out of clauses if it is assigned
on the top level, no matter its truth value (constraints.cc:1158-1161), and the solver calls `propagate` also for literals that are not
assigned (solver.cc:860). If two elements become equal on the top level, the first clause makes the literal false, and the
second one, without the literal, is empty: the problem becomes unsatisfiable although it has a solution in which the literal is false. -/
theorem C31_unsound : ¬ ∀ (cc : CC) (β : Nat → Bool) (σ : Nat → Int) (W W' : World) (r ck : Bool) (fuel : Nat),
    EnvSound cc β → EnvMono cc → Reach W → Inv β σ W →
    (∀ c ∈ W.book.cs, litTrue β c.con.lit → conHolds σ W.book.minimizeBound c.con) →
    solverCheck cc ck fuel W = .ok (r, W') → Respects β σ W'.log → AllHold β W'.log := by
  intro h
  obtain ⟨b, hb⟩ := run_one (op := .check late false 9) (W := lateStart) (W' := lateEnd) (tryRun_getD (by decide +kernel))
  have := h late (fun a => decide (a = 1)) (fun _ => 1) lateStart lateEnd b false 9 late_sound late_mono
    ⟨6, _, by decide, tryRun_getD (by decide +kernel)⟩ (inv_of (by decide +kernel)) ?_ hb (respects_of (by decide +kernel))
  · have h2 := this (.clause [-1]) (by decide +kernel)
    obtain ⟨l, h3, h4⟩ := h2
    rw [List.mem_singleton] at h3
    subst h3
    exact absurd (litB_iff.mpr h4) (by decide)
  · intro c hc hl
    have : c.con.lit = 5 := by
      have : lateStart.book.cs.all (fun c => c.con.lit == 5) = true := by decide +kernel
      simpa using List.all_eq_true.mp this c hc
    rw [this] at hl
    exact absurd (litB_iff.mpr hl) (by decide)

/-! ### A concrete case -/

/-- `x` in `[0, 5]`, `y` in `[2, 7]`, and `x + 1 ≠ y` where `y ≤ 2` is decided and the literal 5 is true; a first clause was refused. -/
def differs (accept : Bool) : CC where
  conf := {}
  atom := fun _ a => if a = 1 ∨ a = 5 then some true else if a = 6 then some false else none
  fix := fun _ a => decide (a = 1 ∨ a = 5)
  lev := fun _ a => if a = 6 then 1 else 0
  level := 1
  accept := fun _ => accept

def differsStart : World := (tryRun [.addVar 1 5, .addVar 2 7, .addConstraint (.distinct 5 [([(1, 0)], 1), ([(1, 1)], 0)]), .check idle false 9, .literal (differs true) 1 2,
  .propagate (differs true) [-6], .check (differs false) false 9] (World.init 6)).getD (World.init 6)

/-- The hypotheses of `C31_propagate_sound_partial` are met for `x = 2` and `y = 2`, and the clause excluding `x = 1` is added. -/
example : Reach differsStart ∧ differsStart.noChanges ∧ Inv (fun a => decide (a = 1 ∨ a = 5 ∨ a = 7)) (fun _ => 2) differsStart ∧
    (∃ c, differsStart.book.cs[0]? = some c ∧ c.alive = true ∧ c.removableAt differsStart.level = false ∧ c.con = .distinct 5 [([(1, 0)], 1), ([(1, 1)], 0)]) ∧
    (differs true).isTrue differsStart.log 5 = true ∧
    (propagateCS (differs true) false 0 differsStart).toOption.map (fun p => (p.1, p.2.log.head?)) = some (true, some (.clause [6, 7])) :=
  ⟨⟨6, _, by decide, tryRun_getD (by decide +kernel)⟩, by constructor <;> decide +kernel, inv_of (by decide +kernel),
    ⟨differsStart.book.cs[0]?.getD { con := .disjoint 0 [] }, by decide +kernel⟩, by decide +kernel, by decide +kernel⟩

end Clingcon.Props
