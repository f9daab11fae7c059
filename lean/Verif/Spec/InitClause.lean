import Verif.Model.InitClause
import Verif.Spec.Order

/-! Meaning of the calls of `InitClauseCreator` and of the calls of `Clingo::PropagateInit` it makes. -/
namespace Clingcon.Spec
open Clingcon

/-- Meaning of the constraints of the Boolean solver. A weight constraint of clingo relates the literal to
`sum >= bound`: the literal implies the constraint (type 1), is implied by it (type -1), or both (type 0). -/
def iHolds (β : Nat → Bool) : IEv → Prop
  | .clause c => ∃ l ∈ c, litTrue β l
  | .weight lit wlits bound type =>
      (type ≥ 0 → litTrue β lit → weightSum β wlits ≥ bound) ∧ (type ≤ 0 → weightSum β wlits ≥ bound → litTrue β lit)
  | .minimize _ _ _ => True

/-- Meaning of what is given to `InitClauseCreator`: weight constraints relate the literal to
`sum <= bound`. -/
def callHolds (β : Nat → Bool) : ICall → Prop
  | .clause c => ∃ l ∈ c, litTrue β l
  | .weight _ lit wlits bound type =>
      (type ≥ 0 → litTrue β lit → weightSum β wlits ≤ bound) ∧ (type ≤ 0 → weightSum β wlits ≤ bound → litTrue β lit)
  | _ => True

/-- The truth values seen when weight constraints are added are those of the assignment. -/
def callAgrees (β : Nat → Bool) : ICall → Prop
  | .weight t lit _ _ _ => (t = some true → litTrue β lit) ∧ (t = some false → ¬ litTrue β lit)
  | _ => True

/-- What callers guarantee: literals are not zero. -/
def callProper : ICall → Prop
  | .clause c => ∀ l ∈ c, l ≠ 0
  | .weight _ lit _ _ _ => lit ≠ 0
  | _ => True

/-- Cost of the minimize literals on a level that have been passed to the Boolean solver. -/
def iCost (β : Nat → Bool) (level : Int) : List IEv → Int
  | [] => 0
  | .minimize l w k :: es => (if k = level then weightSum β [(l, w)] else 0) + iCost β level es
  | _ :: es => iCost β level es

/-- Cost of the minimize literals that have been added. -/
def callCost (β : Nat → Bool) (level : Int) : List ICall → Int
  | [] => 0
  | .minimize l w k :: es => (if k = level then weightSum β [(l, w)] else 0) + callCost β level es
  | _ :: es => callCost β level es

/-- The number of clauses added, and of those in the state for translation. -/
def callClauses : List ICall → Nat
  | [] => 0
  | .clause _ :: cs => callClauses cs + 1
  | _ :: cs => callClauses cs
def translatedClauses (b : Bool) : List ICall → Nat
  | [] => 0
  | .clause _ :: cs => translatedClauses b cs + (if b then 1 else 0)
  | .setState b' :: cs => translatedClauses b' cs
  | _ :: cs => translatedClauses b cs

end Clingcon.Spec
