import Verif.Props.Translate
import Verif.Props.Final
import Verif.Proof.DistinctTerms

/-! The translation of distinct constraints: property C33. -/
namespace Clingcon.Props
open Clingcon Clingcon.Spec

variable {cc : CC} {tc : TConf} {β : Nat → Bool} {σ : Nat → Int} {W W' : World} {lit : Int} {es : List (List (Int × Nat) × Int)} {k n : Nat} {c : CState}
  {q : (Bool × Bool) × List Constr}

theorem translateOne_distinct (hcs : W.book.cs[n]? = some c) (hk : c.con = .distinct lit es) (h : translateOne cc tc k n W = .ok (q, W')) :
    distinctTranslate cc tc c lit es W = .ok (q, W') := by
  unfold translateOne at h
  obtain ⟨c', W1, h1, h2⟩ := SM.bind_ok h
  obtain ⟨⟨hc', -⟩, rfl⟩ := getCS_iff.mp h1
  rw [hcs] at hc'
  injection hc' with hc'
  subst hc'
  rw [hk] at h2
  exact h2

theorem distinct_bounds (hw : Reach W) (hq : W.noChanges) (hcs : W.book.cs[n]? = some c) (ha : c.alive = true) (hin : c.removableAt W.level = false)
    (hk : c.con = .distinct lit es) (hd : c.dirty = []) : BoundsOk (loF (frame W)) (upF (frame W)) es c.assigned := by
  intro i e he
  rw [loF_eq, upF_eq]
  exact C21_distinct_exact hw hq hcs ha hin hk he (by rw [hd]; exact List.not_mem_nil)

/-- **C33** If a distinct constraint in a reachable state is translated and reported to be no longer needed, then it follows from what
was posted and the linear constraints that were added: whenever the literal is true, the terms have pairwise different values. -/
theorem C33_enforced (he : EnvSound cc β) (h0 : cc.level = 0) (hs : ∀ l, (tc.sort l).Perm l) (hi : Inv β σ W) (hw : Reach W) (hq : W.noChanges)
    (hb : ∀ e ∈ es, ∀ x ∈ e.1, lowerOf W x.2 ≤ σ x.2 ∧ σ x.2 ≤ upperOf W x.2) (hne : ∀ e ∈ es, ∀ x ∈ e.1, x.1 ≠ 0)
    (hcs : W.book.cs[n]? = some c) (ha : c.alive = true) (hin : c.removableAt W.level = false) (hk : c.con = .distinct lit es) (hd : c.dirty = [])
    (h : translateOne cc tc k n W = .ok (q, W')) (hl : W'.vars.length ≤ INVALID_VAR) (hx : q.1 = (true, true)) (hadd : ∀ c ∈ q.2, conHolds σ none c)
    (hr : Respects β σ W'.log) (hp : AllHold β W'.log) (ht : litTrue β lit) : (es.map (fun e => wsum σ e.1 + e.2)).Nodup :=
  (distinctTranslate_ok he h0 hs hi hw.ti.pos (distinct_bounds hw hq hcs ha hin hk hd) (fun e h => within_of (hb e h)) hne (translateOne_distinct hcs hk h) hl hadd hr
    (fun cl hcl => hp (.clause cl) hcl) (.inl hp)).2 hx ht

/-- **C33** The translation excludes no values whose terms are pairwise different if the literal is true: everything posted holds, given
that the new literals have their meaning, that is, order literals correspond to bounds, the clauses defining the literals for equalities
hold and the new variables have the values of their terms. -/
theorem C33_exact (he : EnvSound cc β) (h0 : cc.level = 0) (hs : ∀ l, (tc.sort l).Perm l) (hi : Inv β σ W) (hw : Reach W) (hq : W.noChanges)
    (hnf : ∀ (v : Nat) (vs : VarState) (k l : Int), W.vars[v]? = some vs → (k, l) ∈ vs.with → l ≠ TRUE_LIT)
    (hb : ∀ e ∈ es, ∀ x ∈ e.1, lowerOf W x.2 ≤ σ x.2 ∧ σ x.2 ≤ upperOf W x.2) (hne : ∀ e ∈ es, ∀ x ∈ e.1, x.1 ≠ 0)
    (hcs : W.book.cs[n]? = some c) (ha : c.alive = true) (hin : c.removableAt W.level = false) (hk : c.con = .distinct lit es) (hd : c.dirty = [])
    (h : translateOne cc tc k n W = .ok (q, W')) (hl : W'.vars.length ≤ INVALID_VAR) (hadd : ∀ c ∈ q.2, conHolds σ none c)
    (hr : Respects β σ W'.log) (hcl : ∀ cl, SEv.clause cl ∈ W'.log → ∃ l ∈ cl, litTrue β l)
    (ht : litTrue β lit → (es.map (fun e => wsum σ e.1 + e.2)).Nodup) : AllHold β W'.log ∧ FactsHold σ W' ∧ Inv β σ W' := by
  have := (distinctTranslate_ok he h0 hs hi hw.ti.pos (distinct_bounds hw hq hcs ha hin hk hd) (fun e h => within_of (hb e h)) hne (translateOne_distinct hcs hk h) hl hadd hr
    hcl (.inr ⟨hnf, ht⟩)).1
  exact ⟨this.good.posted, this.good.facts, this⟩

/-- **C33** The assumption on what is new in `C33_exact` can always be met: for all values and truth values of what existed before, there
are values for the new variables and truth values for the new literals such that the added linear constraints hold, order literals
correspond to bounds and the new clauses hold. -/
theorem C33_extends (hs : ∀ l, (tc.sort l).Perm l) (tt : litTrue β 1) (hw : Reach W) (hq : W.noChanges)
    (hlog : ∀ l v k, SEv.order l v k ∈ W.log → |l| < W.nextLit ∧ v < W.vars.length) (hres : Respects β σ W.log)
    (hcs : W.book.cs[n]? = some c) (ha : c.alive = true) (hin : c.removableAt W.level = false) (hk : c.con = .distinct lit es) (hd : c.dirty = [])
    (h : translateOne cc tc k n W = .ok (q, W')) :
    ∃ (σ' : Nat → Int) (β' : Nat → Bool), (∀ v < W.vars.length, σ' v = σ v) ∧ agreeBelow W.nextLit β β' ∧ (∀ c ∈ q.2, conHolds σ' none c) ∧
      Respects β' σ' W'.log ∧ ∀ cl, SEv.clause cl ∈ W'.log → SEv.clause cl ∈ W.log ∨ ∃ l ∈ cl, litTrue β' l := by
  obtain ⟨σ', e1, e2, e3⟩ := distinctTranslate_extends hs (distinct_bounds hw hq hcs ha hin hk hd) (translateOne_distinct hcs hk h) σ
  obtain ⟨-, -, -, new, e, -, -, hx⟩ := e3 hw.ti.wf (tabOk_of hw.ti)
  obtain ⟨β', h1, h2, h3⟩ := hx β tt
  refine ⟨σ', β', e1, h1, e2, fun l v k hm => ?_, fun cl hm => ?_⟩
  · rw [e, List.mem_append] at hm
    rcases hm with hm | hm
    · exact h2 l v k hm
    · rw [← litTrue_congr h1 (hlog _ _ _ hm).1, e1 v (hlog _ _ _ hm).2]; exact hres _ _ _ hm
  · rw [e, List.mem_append] at hm
    rcases hm with hm | hm
    · exact .inr (h3 cl hm)
    · exact .inl hm

/-! ### A concrete case -/

/-- The terms `x + y`, `2x + 1` and `3` for `x` in `[0, 2]`, `y` in `[0, 1]` and literal `5`. -/
def differing : World := (tryRun [.addVar 0 2, .addVar 0 1, .addConstraint (.distinct 5 [([(1, 0), (1, 1)], 0), ([(2, 0)], 1), ([], 3)])] (World.init 8)).getD (World.init 8)

/-- There is a new variable for `x + y`, and at most one of the terms is `1` or `3`: literals 10 and 12 are `x + y = 1` and `2x + 1 = 1`,
literals 13 and 15 are `x + y = 3` and `2x + 1 = 3`. The last event comes first. -/
example : (translateOne idle toWeights 100 0 differing).toOption.map (fun p => (p.1, p.2.vars.length, p.2.log.filter (fun e => match e with
    | .watch .. => false | .lit .. => false | _ => true))) =
  some (((true, true), [.sum 1 0 [(-1, 2), (1, 0), (1, 1)], .sum 1 0 [(1, 2), (-1, 0), (-1, 1)]]), 3,
    [.weight 5 [(13, 1), (15, 1), (1, 1)] 1 1, .clause [11, -15], .clause [-14, -15], .clause [14, -11, 15], .order (-14) 0 1, .order (-13) 2 2,
      .weight 5 [(10, 1), (12, 1)] 1 1, .clause [1, -12], .clause [-11, -12], .clause [11, -1, 12], .order (-11) 0 0,
      .clause [9, -10], .clause [-8, -10], .clause [8, -9, 10], .order (-9) 2 0, .order (-8) 2 1]) := by decide +kernel

theorem differing_inv {β : Nat → Bool} (h : 0 ≤ σ 0 ∧ σ 0 ≤ 2) (h' : 0 ≤ σ 1 ∧ σ 1 ≤ 1) : Inv β σ differing := by
  refine fresh_inv (by decide +kernel) (by decide +kernel) (by decide +kernel) (by decide +kernel) (by decide +kernel) (fun v vs hv => ?_)
  have e : differing.vars = [{ lower := 0, upper := 2 }, { lower := 0, upper := 1 }] := by decide +kernel
  rw [e] at hv
  match v, hv with
  | 0, hv => injection hv with hv; subst hv; exact h
  | 1, hv => injection hv with hv; subst hv; exact h'
  | (v + 2), hv => cases hv

/-- The hypotheses of the theorems on the state are met, for values that make the terms different and the literal true. -/
example : Reach differing ∧ differing.noChanges ∧ (∃ c, differing.book.cs[0]? = some c ∧ c.alive = true ∧ c.removableAt differing.level = false ∧
      c.con = .distinct 5 [([(1, 0), (1, 1)], 0), ([(2, 0)], 1), ([], 3)] ∧ c.dirty = []) ∧ differing.log = [] ∧
    Inv (fun _ => true) (fun v => if v = 0 then 2 else 0) differing ∧ EnvSound idle (fun _ => true) ∧ (∀ l, (toWeights.sort l).Perm l) ∧
    (∀ (v : Nat) (vs : VarState) (k l : Int), differing.vars[v]? = some vs → (k, l) ∈ vs.with → l ≠ TRUE_LIT) ∧
    (([([((1 : Int), 0), (1, 1)], (0 : Int)), ([(2, 0)], 1), ([], 3)] : List (List (Int × Nat) × Int)).map
      (fun e => wsum (fun v => if v = 0 then 2 else 0) e.1 + e.2)).Nodup := by
  refine ⟨⟨8, _, by decide, tryRun_getD (by decide +kernel)⟩, by constructor <;> decide +kernel, ⟨differing.book.cs[0]?.getD { con := .disjoint 0 [] }, by decide +kernel⟩,
    by decide +kernel, differing_inv (by decide) (by decide), idle_sound rfl, fun l => List.Perm.refl l, fun v vs k l hv hm => ?_, by decide⟩
  have e : differing.vars = [{ lower := 0, upper := 2 }, { lower := 0, upper := 1 }] := by decide +kernel
  rw [e] at hv
  match v, hv with
  | 0, hv => injection hv with hv; subst hv; have : l ∈ ([] : List Int) := List.mem_map_of_mem (f := Prod.snd) hm
             cases this
  | 1, hv => injection hv with hv; subst hv; have : l ∈ ([] : List Int) := List.mem_map_of_mem (f := Prod.snd) hm
             cases this
  | (v + 2), hv => cases hv

end Clingcon.Props
