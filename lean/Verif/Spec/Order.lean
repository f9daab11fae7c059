import Verif.Model.Solver
import Verif.Spec.Events

/-! Meaning of order literals, clauses and states of the solver for a truth assignment `β` and an
assignment `σ` of integers to variables. -/
namespace Clingcon.Spec
open Clingcon

/-- Truth of a weight constraint `lit <=> sum <= bound` (`type = 0`), `lit => sum <= bound`
(`type > 0`, `RightImplication` of clingo) or `lit <= sum <= bound` (`type < 0`, `LeftImplication`); see base.hh:338-357. -/
def weightSum (β : Nat → Bool) : List (Int × Int) → Int
  | [] => 0
  | (l, w) :: ls => (if l > 0 then (if β l.natAbs then w else 0) else (if β l.natAbs then 0 else w)) + weightSum β ls

/-- Truth of what was posted to the Boolean solver. -/
def evHolds (β : Nat → Bool) : SEv → Prop
  | .clause c => ∃ l ∈ c, litTrue β l
  | .volatile c => ∃ l ∈ c, litTrue β l
  | .weight lit wlits bound type =>
      (type ≥ 0 → litTrue β lit → weightSum β wlits ≤ bound) ∧ (type ≤ 0 → weightSum β wlits ≤ bound → litTrue β lit)
  | _ => True

/-- Each order literal ever introduced is true exactly if the variable is at most the value. -/
def Respects (β : Nat → Bool) (σ : Nat → Int) (log : List SEv) : Prop :=
  ∀ l v k, SEv.order l v k ∈ log → (litTrue β l ↔ σ v ≤ k)

/-- Everything posted to the Boolean solver holds. -/
def AllHold (β : Nat → Bool) (log : List SEv) : Prop := ∀ e ∈ log, evHolds β e

/-- Assumption on the Boolean solver with respect to a truth assignment `β`: literals that are assigned
on the top level have the truth value they have in `β`, provided that everything posted so far holds in `β`.
That is, `β` is not excluded by other parts of the problem. -/
structure EnvSound (cc : CC) (β : Nat → Bool) : Prop where
  tt : litTrue β 1
  isTrue : ∀ log l, AllHold β log → cc.isTrue log l = true → (cc.isFixed log l = true ∨ cc.level = 0) → litTrue β l
  isFalse : ∀ log l, AllHold β log → cc.isFalse log l = true → (cc.isFixed log l = true ∨ cc.level = 0) → ¬ litTrue β l

/-- Assumption on the assignment of the Boolean solver during one call of the propagator: what is
assigned stays assigned. -/
def EnvMono (cc : CC) : Prop := ∀ e log a t, cc.atom log a = some t → cc.atom (e :: log) a = some t

/-- The state `W` is faithful to the assignment `σ` (and `β`): the literal recorded for a value of a
variable is true exactly if the variable is at most that value, the bounds on the top level admit the
values, pending facts are true, and everything posted to the Boolean solver holds. -/
structure Good (β : Nat → Bool) (σ : Nat → Int) (W : World) : Prop where
  pos : 0 < W.nextLit
  table : ∀ v vs, W.vars[v]? = some vs → ∀ k l, (k, l) ∈ vs.with → (litTrue β l ↔ σ v ≤ k)
  bound : ∀ v vs, W.vars[v]? = some vs → vs.minBound ≤ σ v ∧ σ v ≤ vs.maxBound
  litmap : ∀ (i : Nat) e, W.litmap[i]? = some e → e.prev ≠ 0 →
    (litTrue β (if e.sign then (i + 1 : Nat) else -((i + 1 : Nat) : Int)) ↔ σ e.var ≤ e.value)
  facts : ∀ f v k p, (f, v, k, p) ∈ W.factmap → (if f = TRUE_LIT then σ v ≤ k else k < σ v)
  posted : AllHold β W.log

end Clingcon.Spec
