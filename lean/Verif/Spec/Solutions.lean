import Verif.Spec.Order
import Verif.Spec.Constraints
import Verif.Spec.TranslateLoop
import Verif.Spec.Translate

/-! Solutions of the problem given by a state of the solver. -/
namespace Clingcon.Spec
open Clingcon

/-- Truth values `β` and integers `σ` form a solution: the state is faithful to them, in particular, everything posted to the Boolean
solver holds and values are within bounds; order literals have their meaning; and the constraints in use hold if their literals are true. -/
structure Solution (β : Nat → Bool) (σ : Nat → Int) (W : World) : Prop where
  good : Good β σ W
  respects : Respects β σ W.log
  holds : ∀ (n : Nat) c, (states W)[n]? = some (c, true) → litTrue β c.lit → conHolds σ none c

/-- Literals and coefficients of linear and distinct constraints are not zero. -/
def Nonzero : Constr → Prop
  | .sum lit _ es => lit ≠ 0 ∧ ∀ e ∈ es, e.1 ≠ 0
  | .distinct _ es => ∀ e ∈ es, ∀ x ∈ e.1, x.1 ≠ 0
  | _ => True

/-- A state that can be translated: it is on the top level, no changes are pending, and the constraints in use are well-formed and those over
distinct terms have been informed about all bounds. -/
structure Translatable (W : World) : Prop where
  top : W.book.levels.length = 1
  low : W.book.inLdiff = []
  upp : W.book.inUdiff = []
  cons : ∀ (n : Nat) c, W.book.cs[n]? = some c → c.alive = true → Nonzero c.con ∧ ∀ lit es, c.con = .distinct lit es → c.dirty = []

/-- The vector lists exactly the constraints in use, each once. -/
structure InQueue (W : World) (v : List TCon) : Prop where
  once : v.Nodup
  alive : ∀ n, TCon.old n ∈ v ↔ Alive W n
  old : ∀ t ∈ v, ∃ n, t = .old n

/-- The literals whose truth values determine whether what was posted holds and whether order literals have their meaning. -/
def evLits : SEv → List Int
  | .clause c => c
  | .volatile c => c
  | .weight lit wlits _ _ => lit :: wlits.map Prod.fst
  | .order l _ _ => [l]
  | _ => []

/-- All literals and variables mentioned exist. -/
structure Known (W : World) : Prop where
  lits : ∀ e ∈ W.log, ∀ l ∈ evLits e, |l| < W.nextLit
  vars : ∀ l v k, SEv.order l v k ∈ W.log → v < W.vars.length
  facts : ∀ f v k p, (f, v, k, p) ∈ W.factmap → v < W.vars.length
  cons : ∀ (n : Nat) c, (states W)[n]? = some (c, true) → |c.lit| < W.nextLit

/-- The value of an objective function in use. -/
def objValue (σ : Nat → Int) : Constr × Bool → Int
  | (.minimize adjust es, true) => wsum σ es - adjust
  | _ => 0

/-- The value of the objective: the weights posted to the Boolean solver and the objective functions in use. -/
def totalCost (β : Nat → Bool) (σ : Nat → Int) (W : World) : Int := minimizeCost β W.log + ((states W).map (objValue σ)).sum

end Clingcon.Spec
