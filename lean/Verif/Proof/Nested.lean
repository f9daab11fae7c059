import Verif.Proof.LinksRun
import Verif.Proof.Keep

/-! The lower bound of a variable never exceeds its upper bound, and bounds get tighter from level to level. -/
set_option linter.unusedSimpArgs false
namespace Clingcon
open Spec VarState

variable {α : Type} {W W' : World}

/-- Bounds and stacks of a variable are nested. -/
structure Nested (vs : VarState) : Prop where
  le : vs.lower ≤ vs.upper
  low : (vs.lower :: vs.lowerStack.map (·.2)).Pairwise (· ≥ ·)
  upp : (vs.upper :: vs.upperStack.map (·.2)).Pairwise (· ≤ ·)

/-- Bounds and stacks of all variables are nested. -/
def AllNested (W : World) : Prop := ∀ y ∈ (frame W).1, Nested y

theorem nested_bounds {vs : VarState} : Nested vs.bounds ↔ Nested vs := ⟨fun h => ⟨h.le, h.low, h.upp⟩, fun h => ⟨h.le, h.low, h.upp⟩⟩

theorem AllNested.get {v : Nat} {vs : VarState} (h : AllNested W) (hv : W.vars[v]? = some vs) : Nested vs := by
  refine nested_bounds.mp (h _ ?_)
  exact List.mem_map_of_mem (List.mem_of_getElem? hv)

theorem AllNested.fr {x : SM α} (hx : Fr x) : Kw AllNested x := ⟨fun W a W' h hp => by unfold AllNested; rw [hx.fr _ _ _ h]; exact hp⟩

theorem AllNested.set {v : Nat} {y : VarState} {F : List VarState} (h : AllNested W) (hy : Nested y) (he : F = (frame W).1.set v y) : ∀ y ∈ F, Nested y := by
  subst he
  intro z hz
  rcases List.mem_or_eq_of_mem_set hz with hz | rfl
  · exact h z hz
  · exact hy

theorem AllNested.updLower {l v : Nat} {x : Int} {u : Unit} (hi : AllNested W) (hx : ∀ vs, W.vars[v]? = some vs → vs.lower < x + 1 ∧ x + 1 ≤ vs.upper)
    (h : updateLower l v x W = .ok (u, W')) : AllNested W' := by
  obtain ⟨y, hv, e⟩ := updateLower_frame h
  have hn := hi.get hv
  obtain ⟨h1, h2⟩ := hx y hv
  unfold AllNested
  rw [e]
  refine hi.set ?_ rfl
  refine ⟨h2, ?_, hn.upp⟩
  have := hn.low
  rw [List.pairwise_cons] at this
  have key : ∀ b ∈ y.lowerStack.map (·.2), x + 1 ≥ b := fun b hb => by have := this.1 b hb; omega
  dsimp only
  split_ifs
  · rw [List.map_cons, List.pairwise_cons]
    refine ⟨?_, hn.low⟩
    intro b hb
    rcases List.mem_cons.mp hb with rfl | hb
    · show y.lower ≤ x + 1; omega
    · exact key b hb
  · exact List.pairwise_cons.mpr ⟨key, this.2⟩

theorem AllNested.updUpper {l v : Nat} {x : Int} {u : Unit} (hi : AllNested W) (hx : ∀ vs, W.vars[v]? = some vs → x < vs.upper ∧ vs.lower ≤ x)
    (h : updateUpper l v x W = .ok (u, W')) : AllNested W' := by
  obtain ⟨y, hv, e⟩ := updateUpper_frame h
  have hn := hi.get hv
  obtain ⟨h1, h2⟩ := hx y hv
  unfold AllNested
  rw [e]
  refine hi.set ?_ rfl
  refine ⟨h2, hn.low, ?_⟩
  have := hn.upp
  rw [List.pairwise_cons] at this
  have key : ∀ b ∈ y.upperStack.map (·.2), x ≤ b := fun b hb => by have := this.1 b hb; omega
  dsimp only
  split_ifs
  · rw [List.map_cons, List.pairwise_cons]
    refine ⟨?_, hn.upp⟩
    intro b hb
    rcases List.mem_cons.mp hb with rfl | hb
    · show x ≤ y.upper; omega
    · exact key b hb
  · exact List.pairwise_cons.mpr ⟨key, this.2⟩

theorem AllNested.vars {v : Nat} {y : VarState} (hi : AllNested W) (hy : Nested y) : AllNested { W with vars := W.vars.set v y } := by
  refine hi.set (v := v) (nested_bounds.mpr hy) ?_
  simp only [frame, vars_set]

theorem AllNested.undoLowerVar {v : Nat} {u : Unit} (hi : AllNested W) (h : undoLowerVar v W = .ok (u, W')) : AllNested W' := by
  unfold Clingcon.undoLowerVar at h
  simp only [smok] at h
  obtain ⟨vs, W1, ⟨hv, rfl⟩, vs', W2, ⟨hp, rfl⟩, _, W3, rfl, rfl⟩ := h
  refine hi.vars ?_
  have hn := hi.get hv
  unfold VarState.popLower at hp
  split at hp
  · cases hp
  · rename_i k b st e
    injection hp with hp
    subst hp
    have := hn.low
    rw [e, List.map_cons, List.pairwise_cons] at this
    refine ⟨?_, this.2, hn.upp⟩
    have h1 : vs.lower ≥ b := this.1 b (by simp)
    have := hn.le
    show b ≤ vs.upper
    omega

theorem AllNested.undoUpperVar {v : Nat} {u : Unit} (hi : AllNested W) (h : undoUpperVar v W = .ok (u, W')) : AllNested W' := by
  unfold Clingcon.undoUpperVar at h
  simp only [smok] at h
  obtain ⟨vs, W1, ⟨hv, rfl⟩, vs', W2, ⟨hp, rfl⟩, _, W3, rfl, rfl⟩ := h
  refine hi.vars ?_
  have hn := hi.get hv
  unfold VarState.popUpper at hp
  split at hp
  · cases hp
  · rename_i k b st e
    injection hp with hp
    subst hp
    have := hn.upp
    rw [e, List.map_cons, List.pairwise_cons] at this
    refine ⟨?_, hn.low, this.2⟩
    have h1 : vs.upper ≤ b := this.1 b (by simp)
    have := hn.le
    show vs.lower ≤ b
    omega

theorem nested_prim : Prim AllNested where
  book _ _ _ h := h
  event _ _ _ h := h
  levels _ _ h := h
  clear _ h := h
  literal _ _ _ := AllNested.fr fr_getLiteral
  updLiteral _ _ _ _ := AllNested.fr fr_updateLiteral
  mkFact _ _ _ := AllNested.fr fr_makeFact
  drFact _ _ _ := AllNested.fr fr_dropFact
  step _ _ _ := AllNested.fr fr_updateStep
  updLower h hx hi := hi.updLower hx h
  updUpper h hx hi := hi.updUpper hx h
  popLower _ := ⟨fun _ _ _ h hi => hi.undoLowerVar h⟩
  popUpper _ := ⟨fun _ _ _ h hi => hi.undoUpperVar h⟩

theorem AllNested.exec {op : Op} {r : Bool} (hi : AllNested W) (hp : op.pre W) (h : op.exec W = .ok (r, W')) : AllNested W' := by
  have hP := nested_prim
  cases op with
  | addVar lo up =>
    unfold Op.exec at h
    simp only [discard_iff, bind_iff, pure_iff] at h
    obtain ⟨_, W1, ⟨a, h1⟩, -, rfl⟩ := h
    injection h1 with h1
    injection h1 with _ h1
    subst h1
    intro y hy
    simp only [frame, List.map_append, List.mem_append, List.map_cons, List.map_nil, List.mem_singleton] at hy
    rcases hy with hy | rfl
    · exact hi y hy
    · exact ⟨hp.2, by simp [VarState.bounds], by simp [VarState.bounds]⟩
  | simple cc l co v r s => exact (AllNested.fr fr_addSimple).kw _ _ _ h hi
  | fresh => exact (AllNested.fr fr_fresh).kw _ _ _ h hi
  | post e => exact (AllNested.fr fr_post).kw _ _ _ h hi
  | _ => refine (kw_exec hP.toPrimU (fun W n h => h) ?_ ?_ ?_ ?_).kw _ _ _ h hi <;> intros <;> first | contradiction | (intro e; cases e)

theorem AllNested.run {ops : List Op} (h : Run ops W W') (hi : AllNested W) : AllNested W' := by
  induction h with
  | nil => exact hi
  | cons hp hx _ ih => exact ih (hi.exec hp hx)

theorem Reach.nested (h : Reach W) : AllNested W := by
  obtain ⟨n, ops, hn, h⟩ := h
  exact AllNested.run h (fun y hy => by cases hy)

end Clingcon
