import Verif.Proof.ConBuilder

/-! Properties of the constraint builder. -/
namespace Clingcon.Props
open Clingcon Spec

variable {env : PEnv} {τ : Nat → Int} {Base : (Nat → Bool) → Prop} {s s' : PState} {b : Bool}

/-- **C34** A distinct constraint is posted such that the calls capture that the elements have pairwise different values if the literal is
true, whether by linear constraints for pairs or by a constraint. -/
theorem C34_distinct {lit : Int} {elems : List (List (Int × Nat) × Int)} (ho : POracle env τ s.log s.nextLit Base) (h0 : lit ≠ 0)
    (hl : |lit| < s.nextLit) (he : ∀ e ∈ elems, ∀ t ∈ e.1, t.2 < 4294967295) (h : bAddDistinct env lit elems s = .ok (b, s')) :
    ∃ new, s'.log = s.log ++ new ∧ PCaptures τ Base s.nextLit s'.nextLit new b
      (fun β => litTrue β lit → pairwiseNe (elems.map (fun e => wsum τ e.1 + e.2))) :=
  pspec_addDistinct ho h0 hl he h

/-- **C34** The same for the encoding by pairs, for any number of elements. -/
theorem C34_pairs {lit : Int} {elems : List (List (Int × Nat) × Int)} (ho : POracle env τ s.log s.nextLit Base) (h0 : lit ≠ 0)
    (hl : |lit| < s.nextLit) (he : ∀ e ∈ elems, ∀ t ∈ e.1, t.2 < 4294967295) (h : bAllPairs env lit (env.value s.log lit) elems s = .ok (b, s')) :
    ∃ new, s'.log = s.log ++ new ∧ PCaptures τ Base s.nextLit s'.nextLit new b
      (fun β => litTrue β lit → pairwiseNe (elems.map (fun e => wsum τ e.1 + e.2))) := by
  refine (pspec_allPairs h0 elems he ho hl (fun hT β hb => (ho.litval hT hb).mpr rfl) h).congr fun β _ => ?_
  unfold pairwiseNe
  rw [List.pairwise_map]

/-- **C36** A disjoint constraint is posted such that the calls capture that the intervals are pairwise disjoint if the literal is true,
whether by linear constraints for pairs or by a constraint. -/
theorem C36_disjoint {lit : Int} {elems : List (Int × Nat)} (ho : POracle env τ s.log s.nextLit Base) (h0 : lit ≠ 0)
    (hl : |lit| < s.nextLit) (he : ∀ e ∈ elems, e.1 > 0 ∧ e.2 < 4294967295) (h : bAddDisjoint env lit elems s = .ok (b, s')) :
    ∃ new, s'.log = s.log ++ new ∧ PCaptures τ Base s.nextLit s'.nextLit new b
      (fun β => litTrue β lit → pairwiseDisjoint (elems.map (fun e => (τ e.2, e.1)))) :=
  pspec_addDisjoint ho h0 hl he h

/-- **C59** Every call of the parser is turned into calls that capture its meaning. Strict constraints over products are excluded, see
`C11_negation`. -/
theorem C59_posting_partial {e : Event} (ho : POracle env τ s.log s.nextLit Base) (hw : Event.wf s.nextLit e)
    (hn : ∀ lit coab x y coc z rhs, e = .nonlinear lit coab x y coc z rhs true → coab = 0) (h : bEvent env e s = .ok (b, s')) :
    ∃ new, s'.log = s.log ++ new ∧ PCaptures τ Base s.nextLit s'.nextLit new b (fun β => holds β τ e) :=
  pspec_event ho hw hn h

/-- **C11** Nonlinear constraints that are not strict or do not have a product are posted such that the calls capture their meaning.

Missing from the full statement: strict constraints with a product, see `C11_negation` and `C11_law`. -/
theorem C11_partial {lit coab coc rhs : Int} {x y z : Nat} {strict : Bool} (ho : POracle env τ s.log s.nextLit Base) (h0 : lit ≠ 0)
    (hl : |lit| < s.nextLit) (hs : strict = true → coab = 0) (h : bAddNonlinear env lit coab x y coc z rhs strict s = .ok (b, s')) :
    ∃ new, s'.log = s.log ++ new ∧ PCaptures τ Base s.nextLit s'.nextLit new b
      (fun β => attached β lit strict (coab * (τ x * τ y) + coc * τ z ≤ rhs)) :=
  pspec_addNonlinear ho h0 hl hs h

/-- **C11** What is posted for strict constraints with a product: the literal has to be false, whatever the values of the variables are. -/
theorem C11_law {lit coab coc rhs : Int} {x y z : Nat} (hc : coab ≠ 0) (h : bAddNonlinear env lit coab x y coc z rhs true s = .ok (b, s')) :
    b = true ∧ ∃ new, s'.log = s.log ++ new ∧ ∀ β τ, (∀ e ∈ new, pholds β τ e) ↔ ¬ litTrue β lit := by
  unfold bAddNonlinear at h
  rw [if_neg hc] at h
  obtain ⟨u, s1, k1, h⟩ := bindP_ok h
  rw [if_pos rfl] at h
  obtain ⟨iab, e1, h⟩ := liftP_ok h
  obtain ⟨ic, e2, h⟩ := liftP_ok h
  obtain ⟨r1, e3, h⟩ := liftP_ok h
  obtain ⟨r2, e4, h⟩ := liftP_ok h
  obtain ⟨u', s2, k2, h⟩ := bindP_ok h
  obtain ⟨rfl, rfl⟩ := pureP_ok h
  obtain ⟨rfl, -⟩ := safeInv_ok e1
  obtain ⟨rfl, -⟩ := safeInv_ok e2
  obtain ⟨rfl, -⟩ := safeAdd_ok e3
  obtain ⟨rfl, -⟩ := safeInv_ok e4
  unfold pCon at k1 k2
  injection k1 with k1
  injection k1 with _ k1
  injection k2 with k2
  injection k2 with _ k2
  subst k1 k2
  refine ⟨rfl, [.con (.nonlinear lit coab x y coc z rhs), .con (.nonlinear lit (-coab) x y (-coc) z (-(rhs + 1)))], by simp, fun β τ => ?_⟩
  simp only [List.mem_cons, List.not_mem_nil, or_false, forall_eq_or_imp, forall_eq, pholds, conHolds, Constr.lit]
  constructor
  · rintro ⟨h1, h2⟩ h3
    have h1 := h1 h3
    have h2 := h2 h3
    rw [neg_mul, neg_mul] at h2
    omega
  · exact fun h => ⟨fun h1 => absurd h1 h, fun h1 => absurd h1 h⟩

/-- An environment in which nothing is known. -/
def plainEnv : PEnv := ⟨fun _ _ => none, fun _ _ => true, id⟩

/-- The state before the first call: literals 1 and 2 exist. -/
def plainState : PState := ⟨3, []⟩

theorem plainOracle (τ : Nat → Int) : POracle plainEnv τ [] 3 (fun β => litTrue β 1) where
  pos := by omega
  tt _ h := h
  loc β β' h hb := (litTrue_congr h (by decide)).mp hb
  sound _ _ _ _ h := by cases h
  rejects _ _ _ h := by cases h
  sort l := List.Perm.refl l

/-- **C11** fails: for `x * y ≤ 6` and `x = 2`, `y = 3` the relation holds but the posted calls exclude the literal being true. -/
theorem C11_negation : ∃ (new : List PEv) (τ : Nat → Int), bAddNonlinear plainEnv 2 1 0 1 0 0 6 true plainState = .ok (true, ⟨3, new⟩) ∧
    1 * (τ 0 * τ 1) + 0 * τ 0 ≤ 6 ∧ ∀ β, litTrue β 2 → ¬ ∀ e ∈ new, pholds β τ e := by
  refine ⟨[.con (.nonlinear 2 1 0 1 0 0 6), .con (.nonlinear 2 (-1) 0 1 0 0 (-7))], fun v => if v = 0 then 2 else 3, by decide +kernel, by decide, ?_⟩
  intro β h1 h2
  have h := (C11_law (env := plainEnv) (s := plainState) (s' := ⟨3, [.con (.nonlinear 2 1 0 1 0 0 6), .con (.nonlinear 2 (-1) 0 1 0 0 (-7))]⟩) (b := true)
    (lit := 2) (coab := 1) (x := 0) (y := 1) (coc := 0) (z := 0) (rhs := 6) (by decide) (by decide +kernel)).2
  obtain ⟨new, e, h⟩ := h
  have : new = [.con (.nonlinear 2 1 0 1 0 0 6), .con (.nonlinear 2 (-1) 0 1 0 0 (-7))] := by
    simpa [plainState] using e.symm
  subst this
  exact (h β _).mp h2 h1

/-- The hypotheses of `C34_distinct` are met: `x + 1` and `2y` are different if the literal 2 is true. -/
example : POracle plainEnv (fun _ => 0) plainState.log plainState.nextLit (fun β => litTrue β 1) ∧
    bAddDistinct plainEnv 2 [([(1, 0)], 1), ([(2, 1)], 0)] plainState = .ok (true, ⟨5,
      [.clause [3, 4, -2], .clause [-3, -4], .clause [2, -3], .clause [2, -4], .con (.sum 3 (-2) [(1, 0), (-2, 1)]), .con (.sum 4 0 [(-1, 0), (2, 1)])]⟩) :=
  ⟨plainOracle _, by decide +kernel⟩

/-- The hypotheses of `C36_disjoint` are met: two intervals of lengths 2 and 3. -/
example : POracle plainEnv (fun _ => 0) plainState.log plainState.nextLit (fun β => litTrue β 1) ∧
    ∃ s', bAddDisjoint plainEnv 2 [(2, 0), (3, 1)] plainState = .ok (true, s') ∧ s'.nextLit = 7 ∧ s'.log.length = 10 :=
  ⟨plainOracle _, ⟨7, [.con (.sum 3 0 [(1, 1), (-1, 0)]), .con (.sum (-3) (-1) [(-1, 1), (1, 0)]), .con (.sum 4 2 [(1, 0), (-1, 1)]), .con (.sum (-4) (-3) [(-1, 0), (1, 1)]),
    .clause [-2, -3, -4], .con (.sum 5 0 [(1, 0), (-1, 1)]), .con (.sum (-5) (-1) [(-1, 0), (1, 1)]), .con (.sum 6 1 [(1, 1), (-1, 0)]), .con (.sum (-6) (-2) [(-1, 1), (1, 0)]),
    .clause [-2, -5, -6]]⟩, by decide +kernel, rfl, rfl⟩

/-- The hypotheses of `C11_partial` and `C59_posting_partial` are met: `2xy - z ≤ 5` for the literal 2. -/
example : Event.wf plainState.nextLit (.nonlinear 2 2 0 1 (-1) 2 5 false) ∧
    bEvent plainEnv (.nonlinear 2 2 0 1 (-1) 2 5 false) plainState = .ok (true, ⟨3, [.con (.nonlinear 2 2 0 1 (-1) 2 5)]⟩) := by
  refine ⟨?_, by decide +kernel⟩
  show (2 : Int) ≠ 0 ∧ |(2 : Int)| < 3
  decide

end Clingcon.Props
