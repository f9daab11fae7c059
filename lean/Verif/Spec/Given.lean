import Verif.Model.Run
import Verif.Spec.Links

/-! Sequences of calls together with the literals passed to `propagate`. -/
namespace Clingcon.Spec
open Clingcon

/-- The literal `l` is the order literal of the variable `v` for the value `k`; it stands for `v ≤ k`. -/
def OrdLit (W : World) (v : Nat) (k l : Int) : Prop := ∃ vs, W.vars[v]? = some vs ∧ (k, l) ∈ vs.with

/-- The literals passed to `propagate` on the current level and the ones below it. -/
structure Told where
  /-- literals passed to successful calls -/
  done : Int → Prop
  /-- literals passed to any call -/
  tried : Int → Prop

/-- No literal has been passed. -/
def Told.none : Told := ⟨fun _ => False, fun _ => False⟩

/-- Literals are passed to a call with the given result. -/
def Told.add (t : Told) (r : Bool) (ls : List Int) : Told := ⟨fun l => t.done l ∨ r = true ∧ l ∈ ls, fun l => t.tried l ∨ l ∈ ls⟩

/-- The literals passed after a call; one entry for each open level, the last one first. -/
def toldAfter (op : Op) (W W' : World) (r : Bool) : List Told → List Told
  | [] => []
  | t :: ts =>
    match op with
    | .propagate _ ls => if W.book.levels.length < W'.book.levels.length then t.add r ls :: t :: ts else t.add r ls :: ts
    | .undo => ts
    | _ => t :: ts

/-- The conditions on calls besides `Op.pre`:
* the decision level of the Boolean solver is not below the current level (propagator.cc:493-507);
* only known literals are passed to `propagate` (they are watched, solver.cc:458-480);
* constraints over one variable are added and order literals removed on the top level (propagator.cc:357-463), where all
  literals that have been passed to `propagate` are assigned. -/
def feedPre (ts : List Told) (W : World) : Op → Prop
  | .propagate cc ls => W.level ≤ cc.level ∧ ∀ l ∈ ls, l ≠ 0 ∧ (l.natAbs : Int) < W.nextLit
  | .simple cc _ _ _ _ _ => W.book.levels.length = 1 ∧ ∀ t ∈ ts, ∀ l, t.tried l → cc.value W.log l ≠ none
  | .update _ => W.book.levels.length = 1
  | .literal cc _ _ => W.level ≤ cc.level
  | .updLiteral cc _ _ _ => W.level ≤ cc.level
  | .dom cc _ _ _ => W.level ≤ cc.level
  | .check cc _ _ => W.level ≤ cc.level
  | .simplify cc _ _ _ => W.level ≤ cc.level
  | .decide cc _ => W.level ≤ cc.level
  | .checkFull cc _ => W.level ≤ cc.level
  | .updateBounds cc _ _ _ => W.level ≤ cc.level
  | _ => True

/-- Sequences of calls with the literals passed to `propagate`. -/
inductive Fed : List Op → World → List Told → World → List Told → Prop
  | nil (W ts) : Fed [] W ts W ts
  | cons {op ops W W1 W2 ts ts2 r} : op.pre W → feedPre ts W op → op.exec W = .ok (r, W1) → Fed ops W1 (toldAfter op W W1 r ts) W2 ts2 →
      Fed (op :: ops) W ts W2 ts2

end Clingcon.Spec
