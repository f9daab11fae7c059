import Verif.Proof.Copy
import Verif.Props.Queue

/-! Property C47: threads start from equal states. -/
namespace Clingcon.Props
open Clingcon Clingcon.Spec

/-- C47: if the target and the master are on the top level, then the target has the same state as the master after
copying, and the Boolean solver of the target is not involved. -/
theorem C47_equal {target master W : World} (h : copyState target master = .ok W)
    (ht : ∀ l ∈ target.book.levels, l.level = 0) (hm : ∀ l ∈ master.book.levels, l.level = 0) :
    SameSolver master W ∧ W.log = target.log ∧ W.nextLit = target.nextLit := by
  unfold copyState at h
  split at h
  · next l m h1 h2 =>
    cases h3 : copyList master master.book.inactive with
    | error e => simp [h3, bind, Except.bind] at h
    | ok ia =>
    cases h4 : copyVarWatches master master.book.watches with
    | error e => simp [h3, h4, bind, Except.bind] at h
    | ok ws =>
    cases h5 : copyRemoved master master.book.removed with
    | error e => simp [h3, h4, h5, bind, Except.bind] at h
    | ok rs =>
    cases h6 : copyList master master.book.todo with
    | error e => simp [h3, h4, h5, h6, bind, Except.bind] at h
    | ok td =>
      simp [h3, h4, h5, h6, bind, Except.bind, pure, Except.pure] at h
      subst h
      have hl := ht l (by rw [h1]; simp)
      have hm' := hm m (by rw [h2]; simp)
      refine ⟨?_, rfl, rfl⟩
      constructor
      case count => simp
      case states =>
        intro n c c' hc hc'
        simp [hc] at hc'
        subst hc'
        exact copy_same
      case watches => exact copyVarWatches_ok h4
      case removed => exact copyRemoved_ok h5
      case todo => exact copyList_ok h6
      case inactive => exact copyList_ok h3
      case levels =>
        simp only
        rw [h2, hl]
        cases m
        simp only at hm'
        subst hm'
        rfl
      all_goals rfl
  · cases h

/-- Copying is possible for each master on the top level that has been reached by calls of the propagator. The calls
left out are those of C58. -/
theorem C47_defined {start : Int} {d : Bool} {ops : List Op} {target master : World} (h : MasterRun false ops (World.init start) d master)
    (ht : target.book.levels.length = 1) (hm : master.book.levels.length = 1) : ∃ W, copyState target master = .ok W := by
  have hq := C58_queue_partial (masterRun_proper h)
  have hia := masterRun_ia h (fun n hn => by cases hn)
  obtain ⟨l, hl⟩ := List.length_eq_one_iff.mp ht
  obtain ⟨m, hm⟩ := List.length_eq_one_iff.mp hm
  unfold copyState
  rw [hl, hm]
  simp only
  rw [copyList_exists (fun n hn => ?_), copyVarWatches_exists (fun ws hws w hw => ?_), copyRemoved_exists hq.2.2.1, copyList_exists hq.1]
  · exact ⟨_, rfl⟩
  · obtain ⟨v, hv⟩ := List.getElem?_of_mem hws
    exact hq.2.1 v w (by rw [List.getD_eq_getElem?_getD, hv]; exact hw)
  · obtain ⟨c, h1, h2, -⟩ := hia n hn
    exact ⟨c, h1, h2⟩

/-- The calls made one after the other; used in examples. -/
theorem masterRun_of {d d' : Bool} {ops : List Op} {W W' : World} (h : ProperRun d ops W d' W') (hn : ∀ op ∈ ops, ∀ n, op ≠ .removeConstraint n) : MasterRun d ops W d' W' := by
  induction h with
  | nil => exact .nil _ _
  | cons h1 h2 h3 _ ih =>
    exact .cons h1 ⟨h2, fun n e => absurd e (hn _ (by simp) n)⟩ h3 (ih (fun o ho => hn o (by simp [ho])))

def copied : List Op := [.addVar 0 10, .addVar 0 10, .addConstraint (.sum 1 12 [(1, 0), (1, 1)]), .addConstraint (.minimize 0 [(1, 0)]),
  .check idle true 9, .addConstraint (.distinct 1 [([(1, 0)], 0), ([(1, 1)], 0)])]

def copiedEnd : Bool × World := (tryProper false copied (World.init 2)).getD (false, World.init 2)

/-- The hypotheses of `C47_equal` and `C47_defined` are met for a state with pending work. -/
example : MasterRun false copied (World.init 2) copiedEnd.1 copiedEnd.2 ∧ copiedEnd.2.book.levels.length = 1 ∧ copiedEnd.2.book.todo = [2] ∧
    (∀ l ∈ copiedEnd.2.book.levels, l.level = 0) := by
  have h : tryProper false copied (World.init 2) = some copiedEnd := by
    unfold copiedEnd
    cases h : tryProper false copied (World.init 2) with
    | none =>
      have : (tryProper false copied (World.init 2)).isSome = true := by decide +kernel
      rw [h] at this; cases this
    | some p => rfl
  refine ⟨masterRun_of (tryProper_run h) ?_, by decide +kernel, by decide +kernel, by decide +kernel⟩
  intro op ho n e
  subst e
  simp [copied] at ho

end Clingcon.Props
