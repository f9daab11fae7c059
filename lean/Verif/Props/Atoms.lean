import Verif.Proof.Atoms
import Verif.Props.Terms
import Verif.Props.Normalize

/-! Properties C09 (linear constraint atoms) and C10 (nonlinear constraint atoms). -/
namespace Clingcon.Props
open Clingcon Spec

/-- **C09** Every accepted `&sum` atom captures that its literal implies (or is equivalent to) the
relation between the sum of its elements and its guard. -/
theorem C09_sum (pow : Int → Int → Res Int) (hpow : ∀ x y z, pow x y = .ok z → -2 ^ 31 ≤ z ∧ z ≤ 2 ^ 31 - 1)
    (env : BEnv) (σ : Sym → Int) (τ : Nat → Int) (Base : (Nat → Bool) → Prop)
    (lit : Int) (elems : List Term) (op : Rel) (t : Term) (strict : Bool) (s s' : BState) (b : Bool)
    (hw : s.WF) (ho : Oracle env τ s.log s.nextLit Base)
    (h0 : env.solverLit lit ≠ 0) (h1 : |env.solverLit lit| < s.nextLit)
    (h : parseSumAtom pow env { lit := lit, elems := elems, guard := some (op, t) } strict s = .ok (b, s'))
    (hn : s'.numVars ≤ 2 ^ 32 - 1) (ha : Agree σ τ s') :
    s'.WF ∧ ∃ v w new, sumValue names (powers pow) σ elems = some v ∧ value names (powers pow) σ t = some w ∧
      s'.log = s.log ++ new ∧
      Captures τ Base s.nextLit s'.nextLit new b
        (fun β => attached β (env.solverLit lit) strict (relHolds op v w)) := by
  obtain ⟨g, r⟩ := sumAtom_spec pow hpow env σ τ Base lit elems op t strict s s' b hw ho h0 h1 h
  exact ⟨g.wf, r hn ha⟩

/-- **C09** The same for `&diff` atoms. -/
theorem C09_diff (pow : Int → Int → Res Int) (hpow : ∀ x y z, pow x y = .ok z → -2 ^ 31 ≤ z ∧ z ≤ 2 ^ 31 - 1)
    (env : BEnv) (σ : Sym → Int) (τ : Nat → Int) (Base : (Nat → Bool) → Prop)
    (lit : Int) (elems : List Term) (op : Rel) (t : Term) (strict : Bool) (s s' : BState) (b : Bool)
    (hw : s.WF) (ho : Oracle env τ s.log s.nextLit Base)
    (h0 : env.solverLit lit ≠ 0) (h1 : |env.solverLit lit| < s.nextLit)
    (h : parseDiffAtom pow env { lit := lit, elems := elems, guard := some (op, t) } strict s = .ok (b, s'))
    (hn : s'.numVars ≤ 2 ^ 32 - 1) (ha : Agree σ τ s') :
    s'.WF ∧ ∃ v w new, diffValue names (powers pow) σ elems = some v ∧ ground names (powers pow) t = some (.num w) ∧
      s'.log = s.log ++ new ∧
      Captures τ Base s.nextLit s'.nextLit new b
        (fun β => attached β (env.solverLit lit) strict (relHolds op v w)) := by
  obtain ⟨g, r⟩ := diffAtom_spec pow hpow env σ τ Base lit elems op t strict s s' b hw ho h0 h1 h
  exact ⟨g.wf, r hn ha⟩

/-- **C09** Atoms without guard are rejected, and so are differences with a wrong number of elements. -/
theorem C09_reject (pow : Int → Int → Res Int) (env : BEnv) (lit : Int) (elems : List Term) (g : Option (Rel × Term))
    (strict : Bool) (s : BState) :
    parseSumAtom pow env { lit := lit, elems := elems, guard := none } strict s = .error .runtime ∧
    parseDiffAtom pow env { lit := lit, elems := elems, guard := none } strict s = .error .runtime ∧
    (elems.length ≠ 1 → parseDiffAtom pow env { lit := lit, elems := elems, guard := g } strict s = .error .runtime) := by
  refine ⟨rfl, rfl, fun h => ?_⟩
  cases g with
  | none => rfl
  | some g =>
    obtain ⟨op, t⟩ := g
    match elems, h with
    | [], _ => rfl
    | [_], h => simp at h
    | _ :: _ :: _, _ => rfl

/-- `&sum { 3*x - (y + -2); x } > 2*y` -/
def exAtom : Atom := { lit := 3, elems := [exTerm, .sym "x"], guard := some (.gt, .fn "*" [.num 2, .sym "y"]) }

example : (parseSumAtom (fun _ _ => .error .runtime) exEnv exAtom true exState).toOption.map
    (fun r => (r.1, r.2.log, r.2.symMap == exState.symMap)) =
    some (true, [.constraint 3 [(-4, 0), (3, 1)] 1 false, .constraint (-3) [(4, 0), (-3, 1)] (-2) false], true) := by decide

example : exState.WF where
  keys := by decide
  vals := by decide
  bound := by decide

/-- The variable parts of the products among parsed terms, each listed once. -/
def products (ts : List (Int × List Nat)) : List (List Nat) :=
  firstOcc (((ts.map (fun t => t.2.insertionSort (· ≤ ·)))).filter (fun v => v.length = 2))

/-- **C10 (part)** Every accepted `&nsum` atom with at most one product (up to the order of its
factors) captures the written relation. Missing: the property demands this for all accepted atoms, which
is wrong, see `C10_product_lost`; and that all such atoms are accepted, see `C10_order`. -/
theorem C10_nsum_partial (pow : Int → Int → Res Int) (hpow : ∀ x y z, pow x y = .ok z → -2 ^ 31 ≤ z ∧ z ≤ 2 ^ 31 - 1)
    (env : BEnv) (σ : Sym → Int) (τ : Nat → Int) (Base : (Nat → Bool) → Prop)
    (lit : Int) (elems : List Term) (op : Rel) (t : Term) (strict : Bool) (s s' : BState) (b : Bool)
    (hw : s.WF) (ho : Oracle env τ s.log s.nextLit Base)
    (h0 : env.solverLit lit ≠ 0) (h1 : |env.solverLit lit| < s.nextLit)
    (h : parseNsumAtom pow env { lit := lit, elems := elems, guard := some (op, t) } strict s = .ok (b, s'))
    (hn : s'.numVars ≤ 2 ^ 32 - 1) (ha : Agree σ τ s')
    (hp : ∀ ts s1, parseSum pow nonlinOps elems (some t) s = .ok (ts, s1) → (products ts).length ≤ 1) :
    s'.WF ∧ ∃ v w new, sumValue names (powers pow) σ elems = some v ∧ value names (powers pow) σ t = some w ∧
      s'.log = s.log ++ new ∧
      Captures τ Base s.nextLit s'.nextLit new b
        (fun β => attached β (env.solverLit lit) strict (relHolds op v w)) := by
  obtain ⟨g, r⟩ := nsumAtom_spec pow hpow env σ τ Base lit elems op t strict s s' b hw ho h0 h1 h hp
  exact ⟨g.wf, r hn ha⟩

/-- No exponentiation. -/
abbrev noPow : Int → Int → Res Int := fun _ _ => .error .runtime

/-- `&nsum { x*y; x*x } <= 0` -/
def exTwoProducts : Atom :=
  { lit := 3, elems := [.fn "*" [.sym "x", .sym "y"], .fn "*" [.sym "x", .sym "x"]], guard := some (.le, .num 0) }

/-- **C10** fails: a second product silently replaces the first one. For `x = -1` and `y = 5` the
constraint `x*y + x*x ≤ 0` holds but the posted constraint, which is `x*x ≤ 0`, does not. -/
theorem C10_product_lost : ∃ s', parseNsumAtom noPow exEnv exTwoProducts false exState = .ok (true, s') ∧
    s'.log = [.nonlinear 3 1 0 0 0 4294967295 0 false] ∧
    ∃ (σ : Sym → Int) (τ : Nat → Int) (v : Int), Agree σ τ s' ∧
      sumValue names (powers noPow) σ exTwoProducts.elems = some v ∧ relHolds .le v 0 ∧
      ∀ β, litTrue β 3 → ¬ ∀ e ∈ s'.log, holds β τ e := by
  refine ⟨{ exState with log := [.nonlinear 3 1 0 0 0 4294967295 0 false] }, by decide, rfl,
    fun s => if s = .fn "x" [] true then -1 else if s = .fn "y" [] true then 5 else 0,
    fun v => if v = 0 then -1 else if v = 1 then 5 else 0, -4, ?_, by decide, by simp [relHolds], ?_⟩
  · intro p hp
    simp only [exState, List.mem_cons, List.not_mem_nil, or_false] at hp
    rcases hp with rfl | rfl <;> decide
  · intro β hβ h
    have := h _ List.mem_cons_self
    simp [holds, attached, hβ] at this

/-- **C10** fails: whether a constraint is accepted depends on the order of its elements. -/
theorem C10_order :
    parseNsumAtom noPow exEnv { lit := 3, elems := [.sym "x", .fn "*" [.sym "x", .sym "y"]], guard := some (.le, .num 0) } false exState
      = .error .runtime ∧
    ∃ r, parseNsumAtom noPow exEnv { lit := 3, elems := [.fn "*" [.sym "x", .sym "y"], .sym "x"], guard := some (.le, .num 0) } false exState
      = .ok r := by
  exact ⟨by decide, ⟨true, { exState with log := [.nonlinear 3 1 0 1 1 0 0 false] }⟩, by decide⟩

end Clingcon.Props
