import Verif.Model.VarState
import Mathlib.Logic.Function.Basic

/-! Specification of the table of order literals of a variable: a partial function from values to
literals. -/
namespace Clingcon.Spec

/-- Requests to the table of a variable and changes of its bounds. -/
inductive TabOp where
  /-- `get_or_add_literal(value)`, writing `lit` if there is no literal yet. -/
  | refer (value : Int) (lit : Int)
  | set (value : Int) (lit : Int)
  | unset (value : Int)
  | has (value : Int)
  | get (value : Int)
  | all
  | lt (value : Int)
  | le (value : Int)
  | gt (value : Int)
  | ge (value : Int)
  | prev (value : Int)
  | succ (value : Int)
  | setLower (value : Int)
  | setUpper (value : Int)
  | pushLower (level : Nat)
  | pushUpper (level : Nat)
  | popLower
  | popUpper

/-- Answers. -/
inductive TabOut where
  | unit
  | bool (b : Bool)
  | lit (l : Int)
  | opt (l : Option Int)
  | seq (l : List (Int × Int))

/-- The abstract state after a request. -/
def tabNext (f : Int → Option Int) : TabOp → (Int → Option Int)
  | .refer v l => if (f v).isSome then f else Function.update f v (some l)
  | .set v l => Function.update f v (some l)
  | .unset v => Function.update f v none
  | _ => f

/-- `out` lists, in the given order of values, exactly the pairs of `f` whose values satisfy `p`. -/
def Lists (f : Int → Option Int) (p : Int → Prop) (r : Int → Int → Prop) (out : List (Int × Int)) : Prop :=
  out.Pairwise (fun a b => r a.1 b.1) ∧ ∀ k l, (k, l) ∈ out ↔ p k ∧ f k = some l

/-- The answer a request must have. -/
def TabAnswer (f : Int → Option Int) : TabOp → TabOut → Prop
  | .refer v l, .lit o => o = (f v).getD l
  | .has v, .bool b => b = (f v).isSome
  | .get v, .opt o => o = f v
  | .all, .seq o => Lists f (fun _ => True) (· < ·) o
  | .lt v, .seq o => Lists f (· < v) (· > ·) o
  | .le v, .seq o => Lists f (· ≤ v) (· > ·) o
  | .gt v, .seq o => Lists f (v < ·) (· < ·) o
  | .ge v, .seq o => Lists f (v ≤ ·) (· < ·) o
  | .prev v, .lit o => (∃ k, k < v ∧ f k = some o ∧ ∀ k', k < k' → k' < v → f k' = none) ∨
      (o = -1 ∧ ∀ k, k < v → f k = none)
  | .succ v, .lit o => (∃ k, v < k ∧ f k = some o ∧ ∀ k', v < k' → k' < k → f k' = none) ∨
      (o = 1 ∧ ∀ k, v < k → f k = none)
  | .setLower _, .unit | .setUpper _, .unit | .pushLower _, .unit | .pushUpper _, .unit
  | .popLower, .unit | .popUpper, .unit | .set _ _, .unit | .unset _, .unit => True
  | _, _ => False

/-- When a request is permitted: literals are different from 0, values lie within the bounds of the
variable on the lowest level (or have a literal), and bounds on the lowest level only become tighter. -/
def TabPre (vs : VarState) (f : Int → Option Int) : TabOp → Prop
  | .refer v l | .set v l => l ≠ 0 ∧ vs.minBound ≤ v ∧ v < vs.maxBound
  | .unset v | .has v | .get v => (vs.minBound ≤ v ∧ v < vs.maxBound) ∨ (f v).isSome
  | .setLower v => vs.lowerStack = [] → vs.lower ≤ v
  | .setUpper v => vs.upperStack = [] → v ≤ vs.upper
  | .popLower => vs.lowerStack ≠ []
  | .popUpper => vs.upperStack ≠ []
  | _ => True

/-- Run a request on the implementation. -/
def tabRun (vs : VarState) : TabOp → Res (TabOut × VarState)
  | .refer v l => do
    let (old, vs) ← vs.getOrAddLiteral v
    if old = 0 then return (.lit l, ← vs.writeLiteral v l) else return (.lit old, vs)
  | .set v l => do return (.unit, ← vs.setLiteral v l)
  | .unset v => do return (.unit, ← vs.unsetLiteral v)
  | .has v => do return (.bool (← vs.hasLiteral v), vs)
  | .get v => do return (.opt (← vs.getLiteral v), vs)
  | .all => return (.seq vs.with, vs)
  | .lt v => return (.seq (vs.withLt v), vs)
  | .le v => return (.seq (vs.withLe v), vs)
  | .gt v => return (.seq (vs.withGt v), vs)
  | .ge v => return (.seq (vs.withGe v), vs)
  | .prev v => return (.lit (vs.litPrev v), vs)
  | .succ v => return (.lit (vs.litSucc v), vs)
  | .setLower v => return (.unit, { vs with lower := v })
  | .setUpper v => return (.unit, { vs with upper := v })
  | .pushLower l => return (.unit, vs.pushLower l)
  | .pushUpper l => return (.unit, vs.pushUpper l)
  | .popLower => do return (.unit, ← vs.popLower)
  | .popUpper => do return (.unit, ← vs.popUpper)

/-- A run of requests, all permitted when they are issued, never gets stuck (in particular never accesses
the array out of bounds) and each answer is the one of the partial function. -/
def TabRunOK : VarState → (Int → Option Int) → List TabOp → Prop
  | _, _, [] => True
  | vs, f, op :: ops => TabPre vs f op →
      ∃ out vs', tabRun vs op = .ok (out, vs') ∧ TabAnswer f op out ∧ TabRunOK vs' (tabNext f op) ops

end Clingcon.Spec
