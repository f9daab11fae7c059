import Verif.Props.Levels
import Verif.Props.Util
import Verif.Props.IntervalSet
import Verif.Spec.Constraints

/-! Properties of the final check: C24, C49, and C52. -/
set_option linter.unusedSimpArgs false
namespace Clingcon.Props
open Clingcon Clingcon.Spec

variable {cc : CC} {W W' : World} {σ : Nat → Int}

/-- All variables have been fixed. -/
def AllFixed (W : World) : Prop := ∀ v, lowerOf W v = upperOf W v

theorem getVar_lower {v : Nat} {vs : VarState} (h : W.vars[v]? = some vs) : lowerOf W v = vs.lower ∧ upperOf W v = vs.upper := by
  unfold lowerOf upperOf boundsOf
  rw [List.getElem?_map, h]
  exact ⟨rfl, rfl⟩

theorem checkValue_eff : ∀ {es : List (Int × Nat)} {W W' : World} {x : Int}, checkValue es W = .ok (x, W') →
    W' = W ∧ x = wsum (lowerOf W) es ∧ ∀ e ∈ es, lowerOf W e.2 = upperOf W e.2
  | [], W, W', x, h => by
    obtain ⟨rfl, rfl⟩ := pure_iff.mp h
    exact ⟨rfl, rfl, by simp⟩
  | (co, v) :: es, W, W', x, h => by
    unfold checkValue at h
    simp only [smok] at h
    obtain ⟨vs, W1, ⟨hv, rfl⟩, h⟩ := h
    simp only [and_false, false_or] at h
    obtain ⟨ha, y, W2, hy, rfl, rfl⟩ := h
    obtain ⟨rfl, rfl, h3⟩ := checkValue_eff hy
    obtain ⟨h1, h2⟩ := getVar_lower hv
    refine ⟨rfl, ?_, ?_⟩
    · rw [← h1]; simp [wsum]
    · intro e he
      rcases List.mem_cons.mp he with rfl | he
      · rw [h1, h2]
        simpa [VarState.isAssigned] using ha
      · exact h3 e he

theorem sumCheckFull_eff {c : CState} {rhs : Int} {es : List (Int × Nat)} {u : Unit} (h : sumCheckFull c rhs es W = .ok (u, W')) :
    W' = W ∧ wsum (lowerOf W) es ≤ rhs := by
  unfold sumCheckFull at h
  obtain ⟨x, W1, h1, h2⟩ := SM.bind_ok h
  obtain ⟨rfl, rfl, -⟩ := checkValue_eff h1
  simp only [smok, and_false, false_or] at h2
  rcases h2 with ⟨-, -, h2, h3⟩ | ⟨-, -, -, h2, h3⟩
  · exact ⟨h3.2, by omega⟩
  · exact ⟨h3.2, by omega⟩

theorem distinctCheckFull_eff : ∀ {es : List (List (Int × Nat) × Int)} {vals : List Int} {W W' : World} {u : Unit}, distinctCheckFull es vals W = .ok (u, W') →
    W' = W ∧ (∀ e ∈ es, wsum (lowerOf W) e.1 + e.2 ∉ vals) ∧ pairwiseNe (es.map (fun e => wsum (lowerOf W) e.1 + e.2))
  | [], vals, W, W', u, h => ⟨(pure_iff.mp h).2, by simp, List.Pairwise.nil⟩
  | (e, f) :: es, vals, W, W', u, h => by
    unfold distinctCheckFull at h
    obtain ⟨x, W1, h1, h2⟩ := SM.bind_ok h
    obtain ⟨rfl, rfl, -⟩ := checkValue_eff h1
    simp only [smok, and_false, false_or] at h2
    obtain ⟨hc, h2⟩ := h2
    obtain ⟨rfl, h3, h4⟩ := distinctCheckFull_eff h2
    have hc : wsum (lowerOf W') e + f ∉ vals := by
      rw [Int.add_comm]; simpa using hc
    refine ⟨rfl, ?_, ?_⟩
    · intro e' he'
      rcases List.mem_cons.mp he' with rfl | he'
      · exact hc
      · exact fun hm => h3 e' he' (List.mem_cons_of_mem _ hm)
    · rw [List.map_cons, pairwiseNe, List.pairwise_cons]
      refine ⟨fun y hy => ?_, h4⟩
      obtain ⟨e', he', rfl⟩ := List.mem_map.mp hy
      intro heq
      refine h3 e' he' ?_
      rw [← heq]
      exact List.mem_cons.mpr (.inl (Int.add_comm _ _))

theorem disjointCheckFull_iff : ∀ {es : List (Int × Nat)} {hist : List (Int × Int)}, (∀ e ∈ es, ∃ vs, W.vars[e.2]? = some vs ∧ vs.lower = vs.upper ∧ Limits.val.Fits (vs.upper + e.1)) →
    ((∃ u, disjointCheckFull es (addAll hist) W = .ok u) ↔
      (∀ e ∈ es, ∀ p ∈ hist, ¬ ∃ x, (lowerOf W e.2 ≤ x ∧ x < lowerOf W e.2 + e.1) ∧ (p.1 ≤ x ∧ x < p.2)) ∧
        pairwiseDisjoint (es.map (fun e => (lowerOf W e.2, e.1))))
  | [], hist, _ => ⟨fun _ => ⟨by simp, List.Pairwise.nil⟩, fun _ => ⟨_, rfl⟩⟩
  | (w, v) :: es, hist, hv => by
    obtain ⟨vs, h1, h2, h3⟩ := hv _ (List.mem_cons_self ..)
    have hl := (getVar_lower h1).1
    have hm : mAdd Limits.val vs.upper w = .ok (vs.upper + w) := by
      unfold mAdd machine; exact if_pos h3
    have hint := C05_intersects hist vs.lower (vs.upper + w)
    have hadd : (addAll hist).add vs.lower (vs.upper + w) = addAll (hist ++ [(vs.lower, vs.upper + w)]) := by
      unfold addAll; rw [List.foldl_append]; rfl
    have ih := disjointCheckFull_iff (es := es) (hist := hist ++ [(vs.lower, vs.upper + w)]) (fun e he => hv e (List.mem_cons_of_mem _ he))
    have step : (∃ u, disjointCheckFull ((w, v) :: es) (addAll hist) W = .ok u) ↔
        ((addAll hist).intersects vs.lower (vs.upper + w) = false ∧ ∃ u, disjointCheckFull es (addAll (hist ++ [(vs.lower, vs.upper + w)])) W = .ok u) := by
      rw [← hadd]
      constructor
      · rintro ⟨⟨u, W'⟩, h⟩
        unfold disjointCheckFull at h
        simp only [smok] at h
        obtain ⟨vs', W1, ⟨h4, rfl⟩, x, W2, ⟨h5, rfl⟩, h⟩ := h
        rw [h1] at h4
        injection h4 with h4
        subst h4
        rw [hm] at h5
        injection h5 with h5
        subst h5
        simp only [and_false, false_or] at h
        exact ⟨by simpa using h.1, _, h.2⟩
      · rintro ⟨h4, ⟨u, W'⟩, h5⟩
        refine ⟨(u, W'), ?_⟩
        unfold disjointCheckFull
        simp only [smok]
        refine ⟨vs, W, ⟨h1, rfl⟩, _, W, ⟨hm, rfl⟩, .inr ⟨by simp [h4], h5⟩⟩
    dsimp only at h1 h3 hl
    rw [step, ih]
    have hf : (addAll hist).intersects vs.lower (vs.upper + w) = false ↔ ∀ p ∈ hist, ¬ ∃ x, (vs.lower ≤ x ∧ x < vs.lower + w) ∧ (p.1 ≤ x ∧ x < p.2) := by
      rw [← Bool.not_eq_true, hint, h2]
      constructor
      · rintro h p hp ⟨x, hx1, hx2⟩
        exact h ⟨x, hx1.1, hx1.2, p, hp, hx2⟩
      · rintro h ⟨x, hx1, hx2, p, hp, hx3⟩
        exact h p hp ⟨x, ⟨hx1, hx2⟩, hx3⟩
    rw [hf]
    unfold pairwiseDisjoint
    rw [List.map_cons, List.pairwise_cons]
    dsimp only
    constructor
    · rintro ⟨a, b, c⟩
      refine ⟨fun e he p hp => ?_, fun y hy => ?_, c⟩
      · rcases List.mem_cons.mp he with rfl | he
        · dsimp only; rw [hl]; exact a p hp
        · exact b e he p (List.mem_append_left _ hp)
      · obtain ⟨e, he, rfl⟩ := List.mem_map.mp hy
        rintro ⟨x, hx1, hx2⟩
        exact b e he (vs.lower, vs.upper + w) (by simp) ⟨x, hx2, by dsimp only; rw [← h2, ← hl]; exact hx1⟩
    · rintro ⟨a, b, c⟩
      refine ⟨fun p hp => ?_, fun e he p hp => ?_, c⟩
      · have := a (w, v) (List.mem_cons_self ..) p hp
        dsimp only at this
        rw [hl] at this
        exact this
      · rcases List.mem_append.mp hp with hp | hp
        · exact a e (List.mem_cons_of_mem _ he) p hp
        · rw [List.mem_singleton] at hp
          subst hp
          rintro ⟨x, hx1, hx2⟩
          refine b _ (List.mem_map_of_mem he) ⟨x, ?_, hx1⟩
          dsimp only at hx2 ⊢
          rw [← h2, ← hl] at hx2; exact hx2

/-- **C52** The final check of a disjoint constraint accepts an assignment exactly if the intervals are pairwise disjoint
(if the ends of the intervals can be represented as values). -/
theorem C52_disjoint_check {es : List (Int × Nat)} (hv : ∀ e ∈ es, ∃ vs, W.vars[e.2]? = some vs ∧ vs.lower = vs.upper ∧ Limits.val.Fits (vs.upper + e.1)) :
    (∃ r, disjointCheckFull es [] W = .ok r) ↔ pairwiseDisjoint (es.map (fun e => (lowerOf W e.2, e.1))) := by
  have := disjointCheckFull_iff (hist := []) hv
  rw [show addAll [] = [] from rfl] at this
  rw [this]
  simp

theorem disjointCheckFull_eff : ∀ {es : List (Int × Nat)} {s : IntervalSet} {W W' : World} {u : Unit}, disjointCheckFull es s W = .ok (u, W') →
    W' = W ∧ ∀ e ∈ es, ∃ vs, W.vars[e.2]? = some vs ∧ Limits.val.Fits (vs.upper + e.1)
  | [], s, W, W', u, h => ⟨(pure_iff.mp h).2, by simp⟩
  | (w, v) :: es, s, W, W', u, h => by
    unfold disjointCheckFull at h
    simp only [smok, and_false, false_or] at h
    obtain ⟨vs, W1, ⟨h1, rfl⟩, x, W2, ⟨h2, rfl⟩, -, h3⟩ := h
    obtain ⟨rfl, h4⟩ := disjointCheckFull_eff h3
    refine ⟨rfl, fun e he => ?_⟩
    rcases List.mem_cons.mp he with rfl | he
    · refine ⟨vs, h1, ?_⟩
      unfold mAdd machine at h2
      split_ifs at h2 with hf
      exact hf
    · exact h4 e he

theorem checkFullCS_eff {c : CState} {u : Unit} (hf : AllFixed W) (h : checkFullCS c W = .ok (u, W')) : W' = W ∧ conHolds (lowerOf W) W.book.minimizeBound c.con := by
  unfold checkFullCS at h
  cases hc : c.con with
  | sum l r es =>
    rw [hc] at h
    exact sumCheckFull_eff h
  | minimize a es =>
    rw [hc] at h
    obtain ⟨W1, W2, h1, h2⟩ := SM.bind_ok h
    obtain ⟨rfl, rfl⟩ := get_iff.mp h1
    obtain ⟨o, W3, h3, h4⟩ := SM.bind_ok h2
    obtain ⟨h5, rfl⟩ := liftRes_iff.mp h3
    unfold minimizeRhs at h5
    unfold conHolds
    cases hb : W3.book.minimizeBound with
    | none =>
      rw [hb] at h5
      injection h5 with h5
      subst h5
      exact ⟨(pure_iff.mp h4).2, by simp⟩
    | some b =>
      rw [hb] at h5
      dsimp only at h5
      split_ifs at h5
      injection h5 with h5
      subst h5
      obtain ⟨rfl, h6⟩ := sumCheckFull_eff h4
      exact ⟨rfl, fun b' hb' => by injection hb' with hb'; subst hb'; exact h6⟩
  | distinct l es =>
    rw [hc] at h
    obtain ⟨h1, -, h2⟩ := distinctCheckFull_eff h
    exact ⟨h1, h2⟩
  | nonlinear l ca x y cb z r =>
    rw [hc] at h
    dsimp only at h
    unfold nonlinearCheckFull at h
    obtain ⟨vx, W1, h1, h2⟩ := SM.bind_ok h
    obtain ⟨hx, rfl⟩ := getVar_iff.mp h1
    obtain ⟨vy, W2, h3, h4⟩ := SM.bind_ok h2
    obtain ⟨hy, rfl⟩ := getVar_iff.mp h3
    unfold conHolds
    dsimp only
    rw [(getVar_lower hx).1, (getVar_lower hy).1]
    split_ifs at h4 with h0 h5
    · cases h4
    · obtain ⟨-, rfl⟩ := pure_iff.mp h4
      rw [h0]
      exact ⟨rfl, by have := mul_assoc ca vx.lower vy.lower; omega⟩
    · obtain ⟨vz, W3, h6, h7⟩ := SM.bind_ok h4
      obtain ⟨hz, rfl⟩ := getVar_iff.mp h6
      rw [(getVar_lower hz).1]
      split_ifs at h7 with h8
      · cases h7
      · obtain ⟨-, rfl⟩ := pure_iff.mp h7
        exact ⟨rfl, by have := mul_assoc ca vx.lower vy.lower; omega⟩
  | disjoint l es =>
    rw [hc] at h
    dsimp only at h
    obtain ⟨rfl, h2⟩ := disjointCheckFull_eff h
    refine ⟨rfl, (C52_disjoint_check (fun e he => ?_)).mp ⟨_, h⟩⟩
    obtain ⟨vs, h3, h4⟩ := h2 e he
    obtain ⟨h5, h6⟩ := getVar_lower h3
    exact ⟨vs, h3, by rw [← h5, ← h6]; exact hf e.2, h4⟩

theorem checkSolution_eff : ∀ {cs : List CState} {W W' : World} {u : Unit}, AllFixed W → checkSolution cc cs W = .ok (u, W') →
    W' = W ∧ ∀ c ∈ cs, c.alive = true → cc.isTrue W.log c.con.lit = true → conHolds (lowerOf W) W.book.minimizeBound c.con
  | [], W, W', u, _, h => ⟨(pure_iff.mp h).2, by simp⟩
  | c :: cs, W, W', u, hf, h => by
    unfold checkSolution at h
    obtain ⟨t, W1, h1, h2⟩ := SM.bind_ok h
    obtain ⟨rfl, rfl⟩ := qTrue_iff.mp h1
    obtain ⟨_, W2, h3, h4⟩ := SM.bind_ok h2
    rcases whenS_iff.mp h3 with ⟨hb, h5⟩ | ⟨hb, rfl⟩
    · obtain ⟨rfl, h6⟩ := checkFullCS_eff hf h5
      obtain ⟨rfl, h7⟩ := checkSolution_eff hf h4
      refine ⟨rfl, fun c' hc' ha ht => ?_⟩
      rcases List.mem_cons.mp hc' with rfl | hc'
      · exact h6
      · exact h7 c' hc' ha ht
    · obtain ⟨rfl, h7⟩ := checkSolution_eff hf h4
      refine ⟨rfl, fun c' hc' ha ht => ?_⟩
      rcases List.mem_cons.mp hc' with rfl | hc'
      · rw [ha, ht] at hb; cases hb
      · exact h7 c' hc' ha ht

theorem splitVar_fixed {v : Nat} {r : Bool} (hf : AllFixed W) (h : splitVar cc v W = .ok (r, W')) : r = false ∧ W' = W := by
  unfold splitVar at h
  obtain ⟨vs, W1, h1, h2⟩ := SM.bind_ok h
  obtain ⟨hv, rfl⟩ := getVar_iff.mp h1
  have ha : vs.isAssigned = true := by
    obtain ⟨h3, h4⟩ := getVar_lower hv
    unfold VarState.isAssigned
    rw [← h3, ← h4, hf v]
    exact beq_self_eq_true _
  rw [ha] at h2
  exact pure_iff.mp h2

theorem splitEach_fixed : ∀ {vs : List Nat} {r : Bool} {W W' : World}, AllFixed W → splitEach cc vs W = .ok (r, W') → r = false ∧ W' = W
  | [], _, _, _, _, h => pure_iff.mp h
  | v :: vs, r, W, W', hf, h => by
    unfold splitEach at h
    obtain ⟨a, W1, h1, h2⟩ := SM.bind_ok h
    obtain ⟨rfl, rfl⟩ := splitVar_fixed hf h1
    obtain ⟨b, W2, h3, h4⟩ := SM.bind_ok h2
    obtain ⟨rfl, rfl⟩ := splitEach_fixed hf h3
    exact pure_iff.mp h4

theorem splitFirst_fixed : ∀ {vs : List Nat} {r : Bool} {W W' : World}, AllFixed W → splitFirst cc vs W = .ok (r, W') → r = false ∧ W' = W
  | [], _, _, _, _, h => pure_iff.mp h
  | v :: vs, r, W, W', hf, h => by
    unfold splitFirst at h
    obtain ⟨a, W1, h1, h2⟩ := SM.bind_ok h
    obtain ⟨rfl, rfl⟩ := splitVar_fixed hf h1
    exact splitFirst_fixed hf h2

/-- **C24** If the final check returns for a state in which all variables are fixed, then each constraint whose literal
is true holds for the reported values, and nothing has been changed. -/
theorem C24_check_full {u : Unit} (hf : AllFixed W) (h : solverCheckFull cc true W = .ok (u, W')) :
    W' = W ∧ ∀ (n : Nat) (c : CState), W.book.cs[n]? = some c → c.alive = true → cc.isTrue W.log c.con.lit = true →
      conHolds (lowerOf W) W.book.minimizeBound c.con := by
  unfold solverCheckFull at h
  obtain ⟨W1, W2, h1, h2⟩ := SM.bind_ok h
  obtain ⟨rfl, rfl⟩ := get_iff.mp h1
  dsimp only at h2
  obtain ⟨s, W3, h3, h4⟩ := SM.bind_ok h2
  have : s = false ∧ W3 = W2 := by
    split_ifs at h3
    · exact splitEach_fixed hf h3
    · exact splitFirst_fixed hf h3
  obtain ⟨rfl, rfl⟩ := this
  rcases whenS_iff.mp h4 with ⟨-, h5⟩ | ⟨hb, -⟩
  · obtain ⟨W4, W5, h6, h7⟩ := SM.bind_ok h5
    obtain ⟨rfl, rfl⟩ := get_iff.mp h6
    obtain ⟨rfl, h8⟩ := checkSolution_eff hf h7
    exact ⟨rfl, fun n c hc => h8 c (List.mem_of_getElem? hc)⟩
  · cases hb

end Clingcon.Props
