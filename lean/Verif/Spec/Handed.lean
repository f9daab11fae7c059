import Verif.Spec.Posting
import Verif.Spec.IntervalSet

/-! The form of the calls made while a program is parsed. -/
namespace Clingcon.Spec
open Clingcon

/-- A literal whose atom is below `n`. -/
def litOk (n l : Int) : Prop := l ≠ 0 ∧ |l| < n

/-- Coefficients are not zero and each variable occurs once. -/
def coOk (es : List (Int × Nat)) : Prop := (∀ e ∈ es, e.1 ≠ 0) ∧ (es.map (·.2)).Nodup

/-- The form of the calls of the parser: literals are known, coefficients are not zero, variables are valid and occur once in a sum, sizes
are positive, and domains are in canonical form. -/
def properEv (n : Int) : Event → Prop
  | .clause c => ∀ l ∈ c, litOk n l
  | .constraint lit elems _ _ => litOk n lit ∧ coOk elems ∧ ∀ e ∈ elems, e.2 < 4294967295
  | .nonlinear lit _ _ _ _ _ _ _ => litOk n lit
  | .distinct lit elems => litOk n lit ∧ ∀ e ∈ elems, coOk e.1 ∧ ∀ t ∈ e.1, t.2 < 4294967295
  | .disjoint lit elems => litOk n lit ∧ ∀ e ∈ elems, e.1 > 0 ∧ e.2 < 4294967295
  | .dom lit _ d => litOk n lit ∧ Canonical d
  | _ => True

/-- The form of constraints of the solver that do not belong to objectives. -/
def properCon (n : Int) : Constr → Prop
  | .sum lit _ es => litOk n lit ∧ coOk es
  | .distinct lit es => litOk n lit ∧ ∀ e ∈ es, coOk e.1
  | .disjoint lit es => litOk n lit ∧ ∀ e ∈ es, e.1 > 0
  | .nonlinear lit ca _ _ _ _ _ => litOk n lit ∧ ca ≠ 0
  | .minimize _ _ => False

/-- The form of the calls of the constraint builder. -/
def properP (n : Int) : PEv → Prop
  | .clause c => ∀ l ∈ c, litOk n l
  | .simple lit co _ _ _ => litOk n lit ∧ co ≠ 0
  | .dom lit _ d => litOk n lit ∧ Canonical d
  | .con c => properCon n c

end Clingcon.Spec
