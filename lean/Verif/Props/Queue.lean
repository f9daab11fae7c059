import Verif.Proof.Queue
import Verif.Props.RunSound

/-! Property C58: the queue of constraints. -/
namespace Clingcon.Props
open Clingcon Clingcon.Spec

/-- C58, for sequences of calls in which no single constraint is removed while the queue holds constraints that were
queued before translated constraints have been removed: the queue and the lists of watches only refer to constraints
that exist, and a constraint that is marked as queued is in the queue. If no translated constraints have been removed
since the queue was last empty, then the queue consists of the marked constraints, each of them once.

What is missing is the case that is excluded; the property does not hold there, see `C58_negation`. -/
theorem C58_queue_partial {start : Int} {d : Bool} {ops : List Op} {W : World} (h : ProperRun false ops (World.init start) d W) :
    (∀ n ∈ W.book.todo, exists_ W n) ∧
    (∀ v, ∀ w ∈ W.book.watches.getD v [], exists_ W w.2) ∧
    (∀ r ∈ W.book.removed, exists_ W r.2.2) ∧
    (∀ (n : Nat) (c : CState), W.book.cs[n]? = some c → c.todo = true → n ∈ W.book.todo) ∧
    (d = false → W.book.todo.Nodup ∧ ∀ n ∈ W.book.todo, ∃ c, W.book.cs[n]? = some c ∧ c.todo = true) := by
  have hq := q_run h (init_wi start) q_init
  refine ⟨fun n hn => exists_iff.mpr (hq.td n hn), fun v w hw => exists_iff.mpr (hq.wt v w hw), fun r hr => exists_iff.mpr (hq.rm r hr),
    fun n c hc ht => hq.mq n c.alive (by show (qview W.book).flags[n]? = _; rw [flags_get, hc]; simp [flag, ht]), fun hd => ?_⟩
  obtain ⟨h1, h2⟩ := hq.cl (by rw [hd]; rfl)
  refine ⟨h1, fun n hn => ?_⟩
  obtain ⟨a, ha⟩ := h2 n hn
  have ha : (qview W.book).flags[n]? = some (a, true) := ha
  rw [flags_get] at ha
  cases hc : W.book.cs[n]? with
  | none => rw [hc] at ha; cases ha
  | some c =>
    rw [hc] at ha
    simp [flag] at ha
    exact ⟨c, rfl, ha.2⟩

/-- Two constraints over one variable are added; the first one is translated and removed, the second one is then removed
on its own. -/
def dangling : List Op := [.addVar 0 10, .addConstraint (.sum 1 5 [(1, 0)]), .addConstraint (.minimize 0 [(1, 0)]), .removeConstraints (fun n => n == 0), .removeConstraint 1]

def danglingEnd : World := (tryRun dangling (World.init 2)).getD (World.init 2)

/-- The code violates C58: removing translated constraints clears the marks of the constraints that stay in the queue
(solver.cc:212-217), and a constraint without mark is not taken from the queue when it is removed
(solver.cc:188-190). -/
theorem C58_negation : ∃ (ops : List Op) (W : World) (n : Nat), Run ops (World.init 2) W ∧ (∀ op ∈ ops, ∀ k, op = .removeConstraint k → k = n) ∧
    n ∈ W.book.todo ∧ ¬ exists_ W n := by
  refine ⟨dangling, danglingEnd, 1, tryRun_getD (by decide +kernel), ?_, by decide +kernel, ?_⟩
  · intro op ho k hk
    subst hk
    simpa [dangling] using ho
  · rintro ⟨c, h1, h2⟩
    have : danglingEnd.book.cs[1]?.map CState.alive = some false := by decide +kernel
    rw [h1] at this
    simp [h2] at this

instance (W : World) (n : Nat) : Decidable (exists_ W n) :=
  decidable_of_iff ((W.book.cs[n]?.map CState.alive) = some true) (by
    unfold exists_
    cases W.book.cs[n]? with
    | none => simp
    | some c => simp)

instance (d : Bool) (W : World) (op : Op) : Decidable (properCall d W op) := by
  cases op <;> unfold properCall <;> infer_instance

/-- The calls made one after the other, if all are proper; used in examples. -/
def tryProper : Bool → List Op → World → Option (Bool × World)
  | d, [], W => some (d, W)
  | d, op :: ops, W =>
    if op.preB W && decide (properCall d W op) then
      match op.exec W with
      | .ok p => tryProper (!p.2.book.todo.isEmpty && (d || removesMarked op)) ops p.2
      | .error _ => none
    else none

theorem tryProper_run : ∀ {d : Bool} {ops : List Op} {W : World} {p : Bool × World}, tryProper d ops W = some p → ProperRun d ops W p.1 p.2
  | d, [], W, p, h => by injection h with h; subst h; exact .nil _ _
  | d, op :: ops, W, p, h => by
    unfold tryProper at h
    split at h
    · rename_i hp
      rw [Bool.and_eq_true] at hp
      split at h
      · rename_i q he
        exact .cons (r := q.1) (Op.preB_iff.mp hp.1) (of_decide_eq_true hp.2) he (tryProper_run h)
      · cases h
    · cases h

/-- Two constraints; the second one is removed while it is queued, then one is added and propagated, and the first one is removed as translated. -/
def proper : List Op := [.addVar 0 10, .addVar 0 10, .addConstraint (.sum 1 12 [(1, 0), (1, 1)]), .addConstraint (.minimize 0 [(1, 0)]), .removeConstraint 1,
  .addConstraint (.sum 1 5 [(1, 1)]), .check idle true 9, .addConstraint (.sum 1 4 [(1, 0)]), .removeConstraints (fun n => n == 0)]

def properEnd : Bool × World := (tryProper false proper (World.init 2)).getD (false, World.init 2)

/-- The hypothesis of `C58_queue_partial` is met. -/
example : ProperRun false proper (World.init 2) properEnd.1 properEnd.2 ∧ properEnd.1 = true ∧ properEnd.2.book.todo = [3] ∧
    properEnd.2.book.watches = [[(1, 3)], [(1, 2)]] := by
  have h : tryProper false proper (World.init 2) = some properEnd := by
    unfold properEnd
    cases h : tryProper false proper (World.init 2) with
    | none =>
      have : (tryProper false proper (World.init 2)).isSome = true := by decide +kernel
      rw [h] at this; cases this
    | some p => rfl
  exact ⟨tryProper_run h, by decide +kernel, by decide +kernel, by decide +kernel⟩

end Clingcon.Props
