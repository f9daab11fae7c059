import Verif.Spec.Order
import Verif.Spec.BoundLits

/-! Specification of what the Boolean solver guarantees while constraints are checked. -/
namespace Clingcon.Spec

/-- The guarantees of the Boolean solver:
* what is assigned stays assigned during a call,
* the literal 1 is true,
* introducing and watching literals assigns no literals,
* if a clause is added above the top level and the call succeeds, then unit propagation has been done for the clause: a literal of
  the clause is true if all others are false. -/
structure Responsive (cc : CC) : Prop where
  mono : EnvMono cc
  tt : ∀ log, cc.atom log 1 = some true
  still : ∀ log a, (∀ l, cc.atom (.lit l :: log) a = cc.atom log a) ∧ (∀ l, cc.atom (.watch l :: log) a = cc.atom log a) ∧
    ∀ l v k, cc.atom (.order l v k :: log) a = cc.atom log a
  clause : cc.level ≠ 0 → ∀ log c l, l ∈ c → cc.accept (.clause c :: log) = true →
    (∀ m ∈ c, m ≠ l → cc.isFalse (.clause c :: log) m = true) → cc.isTrue (.clause c :: log) l = true
  volatile : cc.level ≠ 0 → ∀ log c l, l ∈ c → cc.accept (.volatile c :: log) = true →
    (∀ m ∈ c, m ≠ l → cc.isFalse (.volatile c :: log) m = true) → cc.isTrue (.volatile c :: log) l = true

/-- Literals that the Boolean solver has not introduced yet are not assigned. -/
def NewLits (cc : CC) (W : World) : Prop :=
  ∀ (new : List SEv) (a : Nat), W.nextLit ≤ (a : Int) → SEv.lit a ∉ new → cc.atom (new ++ W.log) a = none

/-- Order literals for values outside of the current bounds are assigned. -/
def OutLits (cc : CC) (W : World) : Prop :=
  ∀ (v : Nat) (vs : VarState), W.vars[v]? = some vs → ∀ k l, (k, l) ∈ vs.with → (k + 1 < vs.lower ∨ vs.upper < k) → cc.value W.log l ≠ none

/-- Linear constraints (associated with a literal) and objectives, whose coefficients are different from zero. -/
def linearCon : Constr → Prop
  | .sum l _ es => l ≠ 0 ∧ ∀ p ∈ es, p.1 ≠ 0
  | .minimize _ es => ∀ p ∈ es, p.1 ≠ 0
  | _ => False

/-- All constraints are linear, and the bound of the objective is in the range of values. -/
structure LinearOnly (W : World) : Prop where
  con : ∀ (n : Nat) c, W.book.cs[n]? = some c → c.alive = true → linearCon c.con
  bound : ∀ b, W.book.minimizeBound = some b → MIN_VAL ≤ b ∧ b ≤ MAX_VAL

end Clingcon.Spec
