import Verif.Model.ConBuilder
import Verif.Spec.Constraints

/-! Meaning of the calls made by the constraint builder. -/
namespace Clingcon.Spec
open Clingcon

/-- Intended meaning of the calls of the constraint builder. A constraint has to hold if its literal is true. -/
def pholds (β : Nat → Bool) (τ : Nat → Int) : PEv → Prop
  | .clause c => ∃ l ∈ c, litTrue β l
  | .simple lit co var rhs strict => attached β lit strict (co * τ var ≤ rhs)
  | .dom lit var elems => litTrue β lit → ∃ i ∈ elems, i.1 ≤ τ var ∧ τ var < i.2
  | .con c => litTrue β c.lit → conHolds τ none c

/-- Assumptions on the environment: literals reported as false are false in all truth assignments compatible with everything posted so
far, those reported as true are true, and a call is only rejected if there is no such truth assignment. Sorting permutes. -/
structure POracle (env : PEnv) (τ : Nat → Int) (log0 : List PEv) (n0 : Int) (Base : (Nat → Bool) → Prop) : Prop where
  pos : 1 < n0
  tt : ∀ β, Base β → litTrue β 1
  loc : ∀ β β', agreeBelow n0 β β' → Base β → Base β'
  sound : ∀ new k v β, env.atom (log0 ++ new) k = some v → Base β → (∀ e ∈ new, pholds β τ e) → β k = v
  rejects : ∀ new e β, env.accept (log0 ++ new) e = false → Base β → (∀ e' ∈ new, pholds β τ e') → ¬ pholds β τ e
  sort : ∀ l, (env.sort l).Perm l

/-- The calls `new` capture the condition `P` on the truth values of literals below `n`, with the help of fresh literals between `n` and
`n'`. See `Captures`. -/
structure PCaptures (τ : Nat → Int) (Base : (Nat → Bool) → Prop) (n n' : Int) (new : List PEv) (ok : Bool) (P : (Nat → Bool) → Prop) : Prop where
  /-- fresh literals are only added -/
  mono : n ≤ n'
  /-- every truth assignment meeting the condition can be extended to one meeting all calls -/
  sound : ∀ β, Base β → P β → ∃ β', agreeBelow n β β' ∧ ∀ e ∈ new, pholds β' τ e
  /-- every truth assignment meeting all calls meets the condition -/
  complete : ∀ β, Base β → (∀ e ∈ new, pholds β τ e) → P β
  /-- the fresh literals are determined by the old ones: no additional solutions are introduced -/
  unique : ∀ β β', Base β → agreeBelow n β β' → (∀ e ∈ new, pholds β τ e) → (∀ e ∈ new, pholds β' τ e) →
    agreeBelow n' β β'
  /-- the calls only refer to literals below `n'` -/
  locality : ∀ e ∈ new, ∀ β β', agreeBelow n' β β' → (pholds β τ e ↔ pholds β' τ e)
  /-- the result `false` is only returned if the condition cannot be met -/
  conflict : ok = false → ∀ β, Base β → ¬ P β

/-- What the parser guarantees for its calls: literals are literals, variables are variables, and intervals are not empty. -/
def Event.wf (n : Int) : Event → Prop
  | .clause c => ∀ l ∈ c, |l| < n
  | .constraint lit elems _ _ => lit ≠ 0 ∧ |lit| < n ∧ ∀ e ∈ elems, e.2 < 4294967295
  | .nonlinear lit _ _ _ _ _ _ _ => lit ≠ 0 ∧ |lit| < n
  | .distinct lit elems => lit ≠ 0 ∧ |lit| < n ∧ ∀ e ∈ elems, ∀ t ∈ e.1, t.2 < 4294967295
  | .disjoint lit elems => lit ≠ 0 ∧ |lit| < n ∧ ∀ e ∈ elems, e.1 > 0 ∧ e.2 < 4294967295
  | .dom lit _ _ => lit ≠ 0 ∧ |lit| < n
  | _ => True

end Clingcon.Spec
