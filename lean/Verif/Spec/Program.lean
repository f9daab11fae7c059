import Verif.Model.Program
import Verif.Spec.Terms
import Verif.Spec.Events
import Verif.Spec.Relations

/-! Meaning of theory atoms. -/
namespace Clingcon.Spec
open Clingcon

/-- Name of a theory atom without arguments. -/
def theoryName : Term → Option String
  | .sym n => some n
  | .fn n [] => some n
  | _ => none

section
variable (pow : Int → Int → Res Int) (σ : Sym → Int)

/-- The relation between the sum of the terms and the guard holds. -/
def sumHolds (ts : List Term) (guard : Option (Rel × Term)) : Prop :=
  ∃ op t v w, guard = some (op, t) ∧ sumValue names (powers pow) σ ts = some v ∧
    value names (powers pow) σ t = some w ∧ relHolds op v w

/-- The relation between the difference and the number in the guard holds. -/
def diffHolds (ts : List Term) (guard : Option (Rel × Term)) : Prop :=
  ∃ op t v w, guard = some (op, t) ∧ diffValue names (powers pow) σ ts = some v ∧
    ground names (powers pow) t = some (.num w) ∧ relHolds op v w

/-- The terms have pairwise different values. -/
def distinctHolds (ts : List Term) : Prop :=
  ∃ vs, List.Forall₂ (fun t v => value names (powers pow) σ t = some v) ts vs ∧ pairwiseNe vs

/-- The tasks `x@d` with start `x` and duration `d` do not overlap. -/
def disjointHolds (ts : List Term) : Prop :=
  ∃ ivs, List.Forall₂ (fun t (iv : Int × Int) => ∃ a b x, t = .fn "@" [a, b] ∧ ground names (powers pow) a = some x ∧
    iv.1 = σ x ∧ ground names (powers pow) b = some (.num iv.2)) ts ivs ∧ pairwiseDisjoint ivs

/-- The integer `n` is described by the element of a domain, a number or an interval. -/
def inDomElem (n : Int) (t : Term) : Prop :=
  (∃ a b l r, t = .fn ".." [a, b] ∧ ground names (powers pow) a = some (.num l) ∧
    ground names (powers pow) b = some (.num r) ∧ l ≤ n ∧ n ≤ r) ∨
  ground names (powers pow) t = some (.num n)

/-- The variable in the guard has a value in the domain. -/
def domHolds (ts : List Term) (guard : Option (Rel × Term)) : Prop :=
  ∃ op t x, guard = some (op, t) ∧ ground names (powers pow) t = some x ∧ ∃ u ∈ ts, inDomElem pow (σ x) u

/-- Meaning of a theory atom with solver literal `lit` in a truth assignment `β` and an assignment `σ`
to symbols. Atoms in the body (`_b`) are equivalent to their constraint, all others imply it. Only the
first terms of tuples are relevant. Directives do not restrict assignments. -/
def atomHolds (β : Nat → Bool) (lit : Int) (a : TheoryAtom) : Prop :=
  let ts := a.elems.filterMap (fun e => e.tuple.head?)
  if theoryName a.term = some "__sum_b" then attached β lit true (sumHolds pow σ ts a.guard)
  else if theoryName a.term = some "__sum_h" then attached β lit false (sumHolds pow σ ts a.guard)
  else if theoryName a.term = some "__nsum_b" then attached β lit true (sumHolds pow σ ts a.guard)
  else if theoryName a.term = some "__nsum_h" then attached β lit false (sumHolds pow σ ts a.guard)
  else if theoryName a.term = some "__diff_b" then attached β lit true (diffHolds pow σ ts a.guard)
  else if theoryName a.term = some "__diff_h" then attached β lit false (diffHolds pow σ ts a.guard)
  else if theoryName a.term = some "distinct" then attached β lit false (distinctHolds pow σ ts)
  else if theoryName a.term = some "disjoint" then attached β lit false (disjointHolds pow σ ts)
  else if theoryName a.term = some "dom" then attached β lit false (domHolds pow σ ts a.guard)
  else True

/-- Value of the objective functions of a program under an assignment to symbols: terms of `&minimize`
count positively, terms of `&maximize` negatively. -/
def programCost : List TheoryAtom → Option Int
  | [] => some 0
  | a :: as => do
    let ts := a.elems.filterMap (fun e => e.tuple.head?)
    let v ← if theoryName a.term = some "minimize" then sumValue names (powers pow) σ ts
      else if theoryName a.term = some "maximize" then (sumValue names (powers pow) σ ts).map (- ·)
      else some 0
    return v + (← programCost as)

end

/-- Value of the objective function that has been handed to the propagator (`linDen` gives the invalid
variable, which stands for constants, the value one). -/
def eventCost (τ : Nat → Int) : List Event → Int
  | [] => 0
  | .minimize co v :: es => co * linDen τ v + eventCost τ es
  | _ :: es => eventCost τ es

/-- The call says what to show. -/
def isShow : Event → Bool
  | .show | .showSignature _ _ | .showVariable _ => true
  | _ => false

section
variable (pow : Int → Int → Res Int)

/-- The call of the builder that belongs to an element of a `&show` statement: a signature `name/arity`
or a single symbol, which may not be a number. -/
def showElem (s : BState) (t : Term) (e : Event) : Prop :=
  (∃ a b name pos n, t = .fn "/" [a, b] ∧ ground names (powers pow) a = some (.fn name [] pos) ∧
    ground names (powers pow) b = some (.num n) ∧ e = .showSignature name n) ∨
  ((¬ ∃ a b, t = .fn "/" [a, b]) ∧ ∃ x v, ground names (powers pow) t = some x ∧ (∀ n, x ≠ .num n) ∧
    (x, v) ∈ s.symMap ∧ e = .showVariable v)

/-- The calls that belong to the show statements of a program. -/
def showEvents (s : BState) : List TheoryAtom → List Event → Prop
  | [], es => es = []
  | a :: as, es =>
    if theoryName a.term = some "show" then
      ∃ es1 es2, es = .show :: (es1 ++ es2) ∧
        List.Forall₂ (showElem pow s) (a.elems.filterMap (fun e => e.tuple.head?)) es1 ∧ showEvents s as es2
    else showEvents s as es

end
end Clingcon.Spec
