import Verif.Props.Distinct
import Verif.Props.Util
import Verif.Proof.Nonlinear

/-! Propagation of nonlinear constraints: property C37. -/
namespace Clingcon.Props
open Clingcon Clingcon.Spec

variable {cc : CC} {β : Nat → Bool} {σ : Nat → Int} {W W' : World} {n : Nat} {ck r : Bool} {c : CState} {clit ca cb rhs : Int} {x y z : Nat}

/-- The least value of the product in the current state. -/
def leastProduct (W : World) (ca : Int) (x y : Nat) : Int := productLeast ca (lowerOf W x) (upperOf W x) (lowerOf W y) (upperOf W y)

theorem ceilQuot_le {a b s : Int} (hb : b < 0) (h : b * s ≤ a) : ceilQuot a b ≤ s := by
  unfold ceilQuot
  rw [Int.ceil_le]
  have hb' : (b : ℚ) < 0 := by exact_mod_cast hb
  rw [div_le_iff_of_neg hb']
  have : ((b * s : Int) : ℚ) ≤ (a : ℚ) := by exact_mod_cast h
  push_cast at this
  rw [mul_comm]
  exact this

theorem ceildiv_le {a b : Int} (hb : b < 0) (h : b ∣ a ∨ a < 0) {s : Int} (hs : b * s ≤ a) : ceildiv a b ≤ s := by
  have hc := ceilQuot_le hb hs
  rw [C02_ceildiv_partial a b (by omega)]
  split_ifs with h1 h2
  · exact hc
  · omega
  · rcases h with h | h
    · exact absurd h h1
    · exfalso; apply h2; simp [h, hb]

/-- **C37** (partial) Every clause posted while propagating a nonlinear constraint is satisfied by every assignment that satisfies
the constraint, provided that the coefficient `cb` of the linear part is not negative, or the quotient determining the
bound of the linear part is exact or not negative. In the full property, the constraint has to be satisfied only if its literal is true,
and there is no condition on the coefficient; both conditions are necessary (`C37_literal_missing`, `C37_wrong_bound`). -/
theorem C37_propagate_sound_partial (he : EnvSound cc β) (hi : Inv β σ W) (hcs : W.book.cs[n]? = some c) (hk : c.con = .nonlinear clit ca x y cb z rhs)
    (h : propagateCS cc ck n W = .ok (r, W')) (hs : ca * (σ x * σ y) + cb * σ z ≤ rhs)
    (hb : 0 ≤ cb ∨ cb ∣ rhs - leastProduct W ca x y ∨ rhs < leastProduct W ca x y)
    (hr : Respects β σ W'.log) : AllHold β W'.log ∧ FactsHold σ W' ∧ Inv β σ W' := by
  unfold propagateCS at h
  obtain ⟨c', W1, h1, h2⟩ := SM.bind_ok h
  obtain ⟨⟨hc', -⟩, rfl⟩ := getCS_iff.mp h1
  rw [hcs] at hc'
  injection hc' with hc'
  subst hc'
  rw [hk] at h2
  have := (tr_nonlinearPropagate (m := false) (F := frame W1) he (fun hneg s hs => ?_) hs W1 r W' h2).2 ⟨hi, rfl⟩ ⟨hr, fun h => by cases h⟩
  · exact ⟨this.good.posted, this.good.facts, this⟩
  · rw [← lowerOf_eq, ← lowerOf_eq, ← upperOf_eq, ← upperOf_eq] at hs ⊢
    refine ceildiv_le hneg ?_ hs
    rcases hb with hb | hb | hb
    · omega
    · exact .inl hb
    · right; unfold leastProduct at hb; omega

/-- `x * x ≤ 3` for `x = 2` with a literal that is not assigned. -/
def square : World := (tryRun [.addVar 2 2, .addConstraint (.nonlinear 5 1 0 0 0 0 3)] (World.init 6)).getD (World.init 6)
def squareEnd : World := (tryRun [.check idle false 9] square).getD (World.init 6)

/-- **C37** The full property is violated by the code: clauses do not contain the literal of the constraint (constraints.cc:1461-1477),
but the solver calls `propagate` also for literals that are not assigned (solver.cc:875). If `x * x ≤ 3` is violated because `x = 2`,
then an empty clause is added although there is a solution in which the literal of the constraint is false. -/
theorem C37_literal_missing : ¬ ∀ (cc : CC) (β : Nat → Bool) (σ : Nat → Int) (W W' : World) (r ck : Bool) (fuel : Nat),
    EnvSound cc β → EnvMono cc → Reach W → Inv β σ W →
    (∀ c ∈ W.book.cs, litTrue β c.con.lit → conHolds σ W.book.minimizeBound c.con) →
    (∀ c ∈ W.book.cs, ∃ l ca x y cb z rhs, c.con = .nonlinear l ca x y cb z rhs ∧ 0 ≤ cb) →
    solverCheck cc ck fuel W = .ok (r, W') → Respects β σ W'.log → AllHold β W'.log := by
  intro h
  obtain ⟨b, hb⟩ := run_one (op := .check idle false 9) (W := square) (W' := squareEnd) (tryRun_getD (by decide +kernel))
  have hall : ∀ c ∈ square.book.cs, c.con = .nonlinear 5 1 0 0 0 0 3 := by
    have : square.book.cs.all (fun c => decide (c.con = .nonlinear 5 1 0 0 0 0 3)) = true := by decide +kernel
    intro c hc
    simpa using List.all_eq_true.mp this c hc
  have := h idle (fun a => decide (a = 1)) (fun _ => 2) square squareEnd b false 9 (idle_sound rfl) idle_mono
    ⟨6, _, by decide, tryRun_getD (by decide +kernel)⟩ (inv_of (by decide +kernel)) ?_ (fun c hc => ⟨5, 1, 0, 0, 0, 0, 3, hall c hc, by decide⟩) hb
    (respects_of (by decide +kernel))
  · obtain ⟨l, h3, h4⟩ := this (.clause [-1, -1, -1, -1]) (by decide +kernel)
    have : l = -1 := by simpa using h3
    subst this
    exact absurd (litB_iff.mpr h4) (by decide)
  · intro c hc hl
    rw [hall c hc] at hl
    exact absurd (litB_iff.mpr hl) (by decide)

/-- `x * x - 2 z ≤ 7` for `x = 0`. -/
def halves : World := (tryRun [.addVar 0 0, .addVar (-10) 10, .addConstraint (.nonlinear 1 1 0 0 (-2) 1 7)] (World.init 2)).getD (World.init 6)
def halvesEnd : World := (tryRun [.check idle false 9] halves).getD (World.init 6)

/-- **C37** The full property is also violated for constraints that hold unconditionally: `-2 z ≤ 7` has the solution `z = -3`, but
`z ≥ -2` is derived because `ceildiv` does not round to the next greater integer (constraints.cc:1505, util.hh:88-95). -/
theorem C37_wrong_bound : ¬ ∀ (cc : CC) (β : Nat → Bool) (σ : Nat → Int) (W W' : World) (r ck : Bool) (fuel : Nat),
    EnvSound cc β → EnvMono cc → Reach W → Inv β σ W →
    (∀ c ∈ W.book.cs, conHolds σ W.book.minimizeBound c.con) →
    solverCheck cc ck fuel W = .ok (r, W') → Respects β σ W'.log → AllHold β W'.log := by
  intro h
  obtain ⟨b, hb⟩ := run_one (op := .check idle false 9) (W := halves) (W' := halvesEnd) (tryRun_getD (by decide +kernel))
  have hall : ∀ c ∈ halves.book.cs, c.con = .nonlinear 1 1 0 0 (-2) 1 7 := by
    have : halves.book.cs.all (fun c => decide (c.con = .nonlinear 1 1 0 0 (-2) 1 7)) = true := by decide +kernel
    intro c hc
    simpa using List.all_eq_true.mp this c hc
  have := h idle (fun _ => true) (fun v => if v = 0 then 0 else -3) halves halvesEnd b false 9 (idle_sound rfl) idle_mono
    ⟨2, _, by decide, tryRun_getD (by decide +kernel)⟩ (inv_of (by decide +kernel)) ?_ hb
    (respects_of (by decide +kernel))
  · obtain ⟨l, h3, h4⟩ := this (.clause [-1, -1, -1, -1, -2]) (by decide +kernel)
    have : l = -1 ∨ l = -2 := by simpa using h3
    rcases this with rfl | rfl
    · exact absurd (litB_iff.mpr h4) (by decide)
    · exact absurd (litB_iff.mpr h4) (by decide)
  · intro c hc
    rw [hall c hc]
    unfold conHolds
    decide

/-! ### A concrete case -/

/-- `2 x y + 3 z ≤ 40` for `x` in `[2, 4]`, `y` in `[3, 5]`, and `z` in `[0, 20]`: `z ≤ 9` is derived. -/
def derivesZ : World := (tryRun [.addVar 2 4, .addVar 3 5, .addVar 0 20, .addConstraint (.nonlinear 5 2 0 1 3 2 40)] (World.init 6)).getD (World.init 6)

example : (propagateCS idle false 0 derivesZ).toOption.map (fun p => (p.1, p.2.log.filter (fun e => match e with
    | .watch _ => false | .lit _ => false | _ => true))) = some (true, [.clause [-1, -1, -1, -1, -6], .order (-6) 2 9]) := by decide +kernel

/-- The hypotheses of `C37_propagate_sound_partial` on the state are met. -/
example : Inv (fun a => decide (a = 1)) (fun v => if v = 0 then 2 else if v = 1 then 3 else 9) derivesZ ∧ EnvSound idle (fun a => decide (a = 1)) ∧
    (∃ c, derivesZ.book.cs[0]? = some c ∧ c.con = .nonlinear 5 2 0 1 3 2 40) ∧ (2 : Int) * (2 * 3) + 3 * 9 ≤ 40 :=
  ⟨inv_of (by decide +kernel), idle_sound rfl, ⟨derivesZ.book.cs[0]?.getD { con := .disjoint 0 [] }, by decide +kernel⟩, by decide⟩

end Clingcon.Props
