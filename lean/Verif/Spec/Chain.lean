import Verif.Spec.Responsive
import Verif.Spec.Given

/-! Order literals of a variable that follow from each other. -/
namespace Clingcon.Spec
open Clingcon

/-- The order literal of the smallest value above `k` (if there is one) is true. -/
def NextTrue (cc : CC) (W : World) (v : Nat) (k : Int) : Prop :=
  ∀ k' l', OrdLit W v k' l' → k < k' → (∀ j m, OrdLit W v j m → k < j → k' ≤ j) → cc.isTrue W.log l' = true

/-- The order literal of the largest value below `k` (if there is one) is false. -/
def PrevFalse (cc : CC) (W : World) (v : Nat) (k : Int) : Prop :=
  ∀ k' l', OrdLit W v k' l' → k' < k → (∀ j m, OrdLit W v j m → j < k → j ≤ k') → cc.isFalse W.log l' = true

/-- If `l` stands for `v ≤ k`, then the next order literal of `v` is true; if it stands for `v > k`, then the previous one is
false. -/
def Linked (cc : CC) (W : World) (l : Lit) : Prop :=
  (∀ v k, OrdLit W v k l → NextTrue cc W v k) ∧ ∀ v k, OrdLit W v k (-l) → PrevFalse cc W v k

/-- Order literals for values outside of the domain on the top level are assigned accordingly. -/
def TopLits (cc : CC) (W : World) : Prop :=
  ∀ (v : Nat) (vs : VarState), W.vars[v]? = some vs → ∀ k l, (k, l) ∈ vs.with →
    (vs.maxBound ≤ k → cc.isTrue W.log l = true) ∧ (k < vs.minBound → cc.isFalse W.log l = true)

/-- Successful calls of `propagate` on one level above the top level: between calls the assignment of the Boolean solver grows. The list are the
literals passed. -/
inductive Passes (cc0 : CC) (W0 : World) : List Lit → CC → World → Prop
  | start : Passes cc0 W0 [] cc0 W0
  | call {ls cc W cc' new W'} : Passes cc0 W0 ls cc W → Responsive cc' → cc'.level = cc0.level →
      (∀ a b, cc.atom W.log a = some b → cc'.atom W.log a = some b) →
      (Op.propagate cc' new).pre W → (Op.propagate cc' new).exec W = .ok (true, W') → Passes cc0 W0 (ls ++ new) cc' W'

end Clingcon.Spec
