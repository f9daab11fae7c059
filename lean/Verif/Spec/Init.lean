import Verif.Model.Init
import Verif.Spec.Solutions

/-! Specification of the solvers of all threads between solve calls. -/
namespace Clingcon.Spec
open Clingcon

/-- The propagator between solve calls: all solvers have been reached by calls of their functions and are on the top level, no changes of bounds
are pending in the first one, the vector of the propagator lists exactly the constraints in use, and the objective is the only constraint of its kind. -/
structure Resting (T : Threads) : Prop where
  reach : Reach T.master
  top : T.master.book.levels.length = 1
  quiet : T.master.noChanges
  idle : ∀ n ∈ T.master.book.inactive, ∃ c, (states T.master)[n]? = some (c, true) ∧ ∀ a es, c ≠ .minimize a es
  others : ∀ o ∈ T.others, Reach o ∧ o.book.levels.length = 1
  once : T.constraints.Nodup
  listed : ∀ n, n ∈ T.constraints ↔ Alive T.master n
  objective : ∀ n, T.minimize = some n ↔ ∃ a es, (states T.master)[n]? = some (.minimize a es, true)

/-- The constraints in use are well-formed and those over distinct terms have been informed about all bounds (C77 shows that the latter is not always the case). -/
def Informed (W : World) : Prop :=
  ∀ (n : Nat) c, W.book.cs[n]? = some c → c.alive = true → Nonzero c.con ∧ ∀ lit es, c.con = .distinct lit es → c.dirty = []

end Clingcon.Spec
