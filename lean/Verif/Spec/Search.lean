import Verif.Model.Run
import Verif.Spec.Order

/-! Sequences of calls during search, together with what the Boolean solver has told the propagator. -/
namespace Clingcon.Spec
open Clingcon

/-- What is known besides the state of the solver. -/
structure Ghost where
  /-- the last call has not reported a conflict -/
  ok : Bool
  /-- the bound of the objective has been reported since levels have been undone -/
  fresh : Bool
  /-- for each open level, the last one first, the literals known to be false -/
  known : List (Int → Prop)

/-- The Boolean solver passed to calls that propagate constraints. -/
def envOf : Op → Option CC
  | .check cc _ _ => some cc
  | .simplify cc _ _ _ => some cc
  | .updateBounds cc _ _ _ => some cc
  | _ => none

/-- Assumptions on a Boolean solver during a call from `W` to `W'` with result `r`: what is assigned stays assigned,
the literals reported as false are among the given ones, and if the call succeeds, then clauses posted during the call
have been propagated: if all other literals of a clause are false, then the negation of the remaining one is false. -/
structure Answers (cc : CC) (W W' : World) (r : Bool) (g : Int → Prop) : Prop where
  mono : EnvMono cc
  isFalse : ∀ log l, W.log <:+ log → log <:+ W'.log → cc.isFalse log l = true → g l
  units : r = true → ∀ new, W'.log = new ++ W.log → ∀ cl, (.clause cl ∈ new ∨ .volatile cl ∈ new) → ∀ l ∈ cl, (∀ x ∈ cl, x ≠ l → g x) → g (-l)

/-- Literals known to be false before and after a call. Literal 1 is true. A literal stays false until the level is
undone. -/
inductive Learns (op : Op) (W W' : World) (r : Bool) : List (Int → Prop) → List (Int → Prop) → Prop
  | stay {g g' : Int → Prop} {gs} : W'.book.levels.length = W.book.levels.length → (∀ l, g l → g' l) → ¬ g' 1 →
      (∀ cc, envOf op = some cc → Answers cc W W' r g') → Learns op W W' r (g :: gs) (g' :: gs)
  | deeper {g g' : Int → Prop} {gs} : W'.book.levels.length = W.book.levels.length + 1 → (∀ l, g l → g' l) → ¬ g' 1 →
      Learns op W W' r (g :: gs) (g' :: g :: gs)
  | back {g g0 : Int → Prop} {gs} : W'.book.levels.length + 1 = W.book.levels.length → Learns op W W' r (g :: g0 :: gs) (g0 :: gs)

/-- Whether a report of a bound is new: the bound is smaller, or the level is. -/
def newReport (W : World) (level : Nat) (bound : Int) : Bool :=
  (match W.book.minimizeBound with | none => true | some b => decide (bound < b)) || decide (level < W.book.minimizeLevel)

/-- The bound of the objective is up to date after a call. If the last report was not below the level that is undone,
then a new report is necessary (propagator.cc:509-537). -/
def freshAfter (W : World) (f : Bool) : Op → Bool
  | .undo => decide (W.book.minimizeLevel < W.level)
  | .updateMinimize _ level bound => f || newReport W level bound
  | .update _ => true
  | _ => f

/-- The conditions on calls during search besides `Op.pre`:
* after a conflict, the level is undone;
* bounds of the objective are reported with the current decision level, which is not below the last open level, and
  there is only one objective (propagator.cc:509-537, 585-607);
* a new level is only opened if the bound of the objective is up to date. -/
def searchPre (G : Ghost) (W : World) (op : Op) : Prop :=
  (G.ok = true ∨ op = .undo) ∧
  match op with
  | .updateMinimize n level _ => W.level ≤ level ∧ (∀ c, W.book.cs[n]? = some c → ∃ a es, c.con = .minimize a es) ∧
      ∀ (m : Nat) c a es, W.book.cs[m]? = some c → c.alive = true → c.con = .minimize a es → m = n
  | .propagate cc _ => W.level < cc.level → G.fresh = true
  | _ => True

/-- Sequences of calls during search. -/
inductive Search : List Op → World → Ghost → World → Ghost → Prop
  | nil (W G) : Search [] W G W G
  | cons {op ops W W1 W2 G G2 r gs} : op.pre W → searchPre G W op → op.exec W = .ok (r, W1) → Learns op W W1 r G.known gs →
      Search ops W1 ⟨r, freshAfter W G.fresh op, gs⟩ W2 G2 → Search (op :: ops) W G W2 G2

end Clingcon.Spec
