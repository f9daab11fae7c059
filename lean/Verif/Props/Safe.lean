import Verif.Proof.SafeCalls
import Verif.Props.Levels
import Verif.Props.Sum

/-! Property C66: calls that maintain order literals, bounds, levels and constraints return, without a failing assertion or an access
out of range. -/
namespace Clingcon.Props
open Clingcon Clingcon.Spec

variable {W : World}

/-- C66: in every state reached by calls, as long as there has been no conflict on the top level, a call returns if its arguments
exist and the literals passed are true. -/
theorem C66_returns {n : Int} {ops : List Op} {op : Op} (hn : 1 < n) (h : Proceed ops (World.init n) W) (hp : op.pre W) (hm : mustReturn W op) :
    ∃ r W', op.exec W = .ok (r, W') :=
  Ok.exec ⟨h.fc (FC.init hn), AllNested.run h.run (fun vs hv => (List.not_mem_nil hv).elim), run_wi h.run (init_wi n)⟩ hp hm

def safeOps : List Op :=
  [.addVar 0 10, .addVar 0 10, .addConstraint (.sum 1 8 [(1, 0), (1, 1)]), .simple idle 2 1 0 3 true, .simple idle 3 1 1 5 true, .check idle true 100,
   .propagate (assigns 1 [(2, false)]) [-2], .check (assigns 1 [(2, false), (5, false)]) true 100]

/-- Two variables with a constraint, order literals, a decision and propagation on level 1. -/
def safeWorld : World := (tryProceed safeOps (World.init 5)).getD (World.init 5)

theorem safeWorld_proceed : Proceed safeOps (World.init 5) safeWorld := by
  refine tryProceed_proceed ?_
  unfold safeWorld
  have : (tryProceed safeOps (World.init 5)).isSome = true := by decide +kernel
  obtain ⟨W, hW⟩ := Option.isSome_iff_exists.mp this
  rw [hW]
  rfl

/-- The level can be left. -/
example : ∃ r W', Op.undo.exec safeWorld = .ok (r, W') :=
  C66_returns (by decide) safeWorld_proceed trivial (show safeWorld.book.levels.length ≠ 1 by decide +kernel)

/-- The literal that has been introduced for the second variable can be propagated. -/
example : ∃ r W', (Op.propagate (assigns 1 [(2, false), (5, false)]) [-5]).exec safeWorld = .ok (r, W') := by
  refine C66_returns (by decide) safeWorld_proceed (Op.preB_iff.mp (by decide +kernel)) ⟨fun _ _ _ _ h => h, fun l hl => ?_⟩
  obtain rfl := List.mem_singleton.mp hl
  exact ⟨by decide +kernel, fun h => by cases h⟩

/-- Bounds that exclude each other, and a check that finds the conflict. -/
def failOps : List Op := [.addVar 0 10, .simple idle 1 1 0 3 false, .simple idle 1 (-1) 0 (-7) false, .check idle true 10]

def failWorld : World := (tryRun failOps (World.init 5)).getD (World.init 5)

def fails {α : Type} (x : SM α) (W : World) : Bool := match x W with | .error .ub => true | _ => false

theorem fails_eq {α : Type} {x : SM α} (h : fails x W = true) : x W = .error .ub := by
  unfold fails at h
  split at h
  · assumption
  · cases h

/-- C66: the restriction to calls before a conflict on the top level is necessary. After such a conflict, facts that have been
integrated are still recorded, and integrating them again violates the assertion at solver.cc:801. -/
theorem C66_conflict_final : ∃ (ops : List Op) (op : Op) (W : World), Run ops (World.init 5) W ∧ op.pre W ∧ mustReturn W op ∧ op.exec W = .error .ub := by
  refine ⟨failOps, .propagate idle [1], failWorld, tryRun_run ?_, Op.preB_iff.mp (by decide +kernel), ⟨idle_mono, fun l hl => ?_⟩, ?_⟩
  · unfold failWorld
    have : (tryRun failOps (World.init 5)).isSome = true := by decide +kernel
    obtain ⟨W, hW⟩ := Option.isSome_iff_exists.mp this
    rw [hW]
    rfl
  · obtain rfl := List.mem_singleton.mp hl
    exact ⟨by decide +kernel, fun _ => rfl⟩
  · exact fails_eq (by decide +kernel)

end Clingcon.Props
