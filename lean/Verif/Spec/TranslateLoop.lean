import Verif.Model.Translate

/-! Specification of the translation of all constraints: a queue of constraints is processed one after the
other; constraints added on the way are appended to the queue. -/
namespace Clingcon.Spec
open Clingcon

/-- `Translated cc tc fuel q W tr W'`: processing the queue `q` in state `W` translates the constraints in `tr`
(numbers of constraint states together with the information whether they were reported as removable). -/
inductive Translated (cc : CC) (tc : TConf) (fuel : Nat) : List TCon → World → List (Nat × Bool) → World → Prop
  | nil (W) : Translated cc tc fuel [] W [] W
  | cons {t q W n W1 b added W2 tr W3} : t.add W = .ok (n, W1) → translateOne cc tc fuel n W1 = .ok (((true, b), added), W2) →
      Translated cc tc fuel (q ++ added.map .new) W2 tr W3 → Translated cc tc fuel (t :: q) W ((n, b) :: tr) W3

/-- The constraints reported as not removable, in the order in which they were processed. -/
def keptOf (tr : List (Nat × Bool)) : List TCon := (tr.filter (fun p => !p.2)).map (fun p => .old p.1)

/-- The constraints reported as removable. -/
def removedOf (tr : List (Nat × Bool)) : List TCon := (tr.filter (fun p => p.2)).map (fun p => .old p.1)

/-- The constraints that have a state, and whether that state is still in use. -/
def states (W : World) : List (Constr × Bool) := W.book.cs.map (fun c => (c.con, c.alive))

/-- The constraint with the given number is in use. -/
def Alive (W : World) (n : Nat) : Prop := ∃ c, (states W)[n]? = some (c, true)

end Clingcon.Spec
