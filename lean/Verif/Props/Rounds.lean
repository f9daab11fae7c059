import Verif.Proof.Rounds
import Verif.Proof.LinksRun
import Verif.Props.Safe

/-! Property C67: the loop of `check` ends. -/
namespace Clingcon.Props
open Clingcon Clingcon.Spec

variable {W : World}

/-- C67: in every state reached by calls, the loop of `check` ends before its round number `domainSize W + 2`: it does not matter what
would happen after that many rounds, whether that is a failure, another result or any other computation. On the top level of the
Boolean solver, all levels have been left. -/
theorem C67_check_ends {n : Int} {ops : List Op} {cc : CC} {checkState : Bool} {rounds : Nat} (hn : 1 < n) (h : Run ops (World.init n) W)
    (hl : cc.level = 0 → W.level = 0) (hr : domainSize W + 1 < rounds) (stop : SM Bool) :
    checkWith stop cc checkState rounds W = solverCheck cc checkState rounds W :=
  checkWith_eq (TI.run h (TI.init hn)) (AllNested.run h (fun vs hv => (List.not_mem_nil hv).elim)) (run_wi h (init_wi n)) hl hr

/-- C67: hence the result of `check` does not depend on the bound on the number of rounds used in the model. -/
theorem C67_rounds {n : Int} {ops : List Op} {cc : CC} {checkState : Bool} {rounds rounds' : Nat} (hn : 1 < n) (h : Run ops (World.init n) W)
    (hl : cc.level = 0 → W.level = 0) (hr : domainSize W + 1 < rounds) (hr' : domainSize W + 1 < rounds') :
    (Op.check cc checkState rounds).exec W = (Op.check cc checkState rounds').exec W := by
  have key : ∀ {a b : Nat}, a ≤ b → domainSize W + 1 < a → solverCheck cc checkState b W = solverCheck cc checkState a W := by
    intro a b hab ha
    have := check_more (cc := cc) (ck := checkState) (k := b - a) (TI.run h (TI.init hn)) (AllNested.run h (fun vs hv => (List.not_mem_nil hv).elim))
      (run_wi h (init_wi n)) hl ha
    rwa [show a + (b - a) = b by omega] at this
  show solverCheck cc checkState rounds W = solverCheck cc checkState rounds' W
  rcases Nat.le_total rounds rounds' with hab | hab
  · exact (key hab hr).symm
  · exact key hab hr'

/-- The constraints `10x ≤ 8y` and `10y ≤ 8x`, whose propagation removes the values of the variables one after the other. -/
def pingOps : List Op :=
  [.addVar 0 100, .addVar 0 100, .addConstraint (.sum 1 0 [(10, 0), (-8, 1)]), .addConstraint (.sum 1 0 [(10, 1), (-8, 0)])]

def pingWorld : World := (tryRun pingOps (World.init 5)).getD (World.init 5)

theorem pingWorld_run : Run pingOps (World.init 5) pingWorld := by
  refine tryRun_run ?_
  unfold pingWorld
  have : (tryRun pingOps (World.init 5)).isSome = true := by decide +kernel
  obtain ⟨W, hW⟩ := Option.isSome_iff_exists.mp this
  rw [hW]
  rfl

/-- The loop ends whatever is done after 202 rounds. -/
example (stop : SM Bool) : checkWith stop idle true 202 pingWorld = solverCheck idle true 202 pingWorld :=
  C67_check_ends (by decide) pingWorld_run (fun _ => by decide +kernel) (by decide +kernel) stop

/-- More than 12 rounds are needed. -/
example : solverCheck idle true 12 pingWorld = .error .ub := fails_eq (by decide +kernel)

example : fails (solverCheck idle true 13) pingWorld = false := by decide +kernel

end Clingcon.Props
