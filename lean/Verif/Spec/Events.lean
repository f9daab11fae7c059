import Verif.Model.Builder
import Verif.Spec.Linear

/-! Meaning of the calls of the constraint builder. -/
namespace Clingcon.Spec
open Clingcon

/-- Truth of a literal in a truth assignment `β` to atoms `1, 2, ...`. -/
def litTrue (β : Nat → Bool) (l : Int) : Prop := if l > 0 then β l.natAbs = true else β l.natAbs = false

/-- Constraint `v ≤ rhs` attached to a literal: implication or equivalence. -/
def attached (β : Nat → Bool) (lit : Int) (strict : Bool) (P : Prop) : Prop :=
  if strict then (litTrue β lit ↔ P) else (litTrue β lit → P)

/-- Pairwise different values. -/
def pairwiseNe (vals : List Int) : Prop := vals.Pairwise (· ≠ ·)

/-- The half-open intervals `[s, s + w)` are pairwise disjoint. -/
def pairwiseDisjoint (ivs : List (Int × Int)) : Prop :=
  ivs.Pairwise (fun a b => ¬ ∃ x, (a.1 ≤ x ∧ x < a.1 + a.2) ∧ (b.1 ≤ x ∧ x < b.1 + b.2))

/-- Intended meaning of a call of the builder for a truth assignment `β` and an assignment `τ` of
integers to variables. -/
def holds (β : Nat → Bool) (τ : Nat → Int) : Event → Prop
  | .clause c => ∃ l ∈ c, litTrue β l
  | .constraint lit elems rhs strict => attached β lit strict (linVal τ elems ≤ rhs)
  | .nonlinear lit coab a b coc c rhs strict => attached β lit strict (coab * (τ a * τ b) + coc * τ c ≤ rhs)
  | .distinct lit elems => litTrue β lit → pairwiseNe (elems.map (fun e => linVal τ e.1 + e.2))
  | .disjoint lit elems => litTrue β lit → pairwiseDisjoint (elems.map (fun e => (τ e.2, e.1)))
  | .dom lit v elems => litTrue β lit → ∃ i ∈ elems, i.1 ≤ τ v ∧ τ v < i.2
  | .minimize _ _ => True
  | .show => True
  | .showSignature _ _ => True
  | .showVariable _ => True

/-- Two truth assignments agree on all atoms below `n`. -/
def agreeBelow (n : Int) (β β' : Nat → Bool) : Prop := ∀ k : Nat, (k : Int) < n → β k = β' k

/-- Assumptions on the environment. `Base` are the truth assignments that are compatible with
everything posted before; the literals reported as true have to be true in all truth assignments that
are compatible with everything posted so far, and a call is only rejected if there is no such truth
assignment (any more). -/
structure Oracle (env : BEnv) (τ : Nat → Int) (log0 : List Event) (n0 : Int) (Base : (Nat → Bool) → Prop) : Prop where
  pos : 1 < n0
  tt : ∀ β, Base β → litTrue β 1
  loc : ∀ β β', agreeBelow n0 β β' → Base β → Base β'
  sound : ∀ new l β, env.isTrue (log0 ++ new) l = true → Base β → (∀ e ∈ new, holds β τ e) → litTrue β l
  rejects : ∀ new e β, env.accept (log0 ++ new) e = false → Base β → (∀ e' ∈ new, holds β τ e') → ¬ holds β τ e

/-- The calls `new` of the builder capture the condition `P` on the truth values of literals below
`n`, with the help of fresh literals between `n` and `n'`. -/
structure Captures (τ : Nat → Int) (Base : (Nat → Bool) → Prop) (n n' : Int) (new : List Event) (ok : Bool)
    (P : (Nat → Bool) → Prop) : Prop where
  /-- fresh literals are only added -/
  mono : n ≤ n'
  /-- every truth assignment meeting the condition can be extended to one meeting all calls -/
  sound : ∀ β, Base β → P β → ∃ β', agreeBelow n β β' ∧ ∀ e ∈ new, holds β' τ e
  /-- every truth assignment meeting all calls meets the condition -/
  complete : ∀ β, Base β → (∀ e ∈ new, holds β τ e) → P β
  /-- the fresh literals are determined by the old ones: no additional solutions are introduced -/
  unique : ∀ β β', Base β → agreeBelow n β β' → (∀ e ∈ new, holds β τ e) → (∀ e ∈ new, holds β' τ e) →
    agreeBelow n' β β'
  /-- the calls only refer to literals below `n'` -/
  locality : ∀ e ∈ new, ∀ β β', agreeBelow n' β β' → (holds β τ e ↔ holds β' τ e)
  /-- the result `false` is only returned if the condition cannot be met -/
  conflict : ok = false → ∀ β, Base β → ¬ P β

theorem litTrue_neg (β : Nat → Bool) (l : Int) (h : l ≠ 0) : litTrue β (-l) ↔ ¬ litTrue β l := by
  unfold litTrue
  rw [Int.natAbs_neg]
  rcases lt_or_gt_of_ne h with h | h
  · rw [if_pos (by omega), if_neg (by omega)]; simp
  · rw [if_neg (by omega), if_pos (by omega)]; simp

theorem litTrue_congr {n : Int} {β β' : Nat → Bool} (h : agreeBelow n β β') {l : Int} (hl : |l| < n) :
    litTrue β l ↔ litTrue β' l := by
  unfold litTrue
  rw [h l.natAbs (by rwa [Int.natCast_natAbs])]

end Clingcon.Spec
