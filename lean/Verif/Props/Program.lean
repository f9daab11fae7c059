import Verif.Proof.Objective
import Verif.Props.Atoms

/-! Properties C53 (programs), C54 (objective functions) and C55 (show statements). -/
namespace Clingcon.Props
open Clingcon Spec

/-- The nonlinear sums of a program have at most one product each (up to the order of the factors). -/
def OneProduct (pow : Int → Int → Res Int) (a : TheoryAtom) : Prop :=
  theoryName a.term = some "__nsum_b" ∨ theoryName a.term = some "__nsum_h" →
    ∀ op t, a.guard = some (op, t) → ∀ s ts s1,
      parseSum pow nonlinOps (a.elems.filterMap (fun e => e.tuple.head?)) (some t) s = .ok (ts, s1) → (products ts).length ≤ 1

/-- **C53 (part)** The calls made for an accepted program capture that all of its theory atoms have
their meaning: a truth assignment to the literals of the program and an assignment of integers to the
symbols can be extended to the auxiliary literals, in exactly one way, such that all calls are
satisfied, if and only if every theory atom holds. If `false` is reported, then there is no such truth
assignment. Missing: nonlinear sums with more than one product, for which this is wrong
(`C10_product_lost`). -/
theorem C53_program_partial (pow : Int → Int → Res Int) (hpow : ∀ x y z, pow x y = .ok z → -2 ^ 31 ≤ z ∧ z ≤ 2 ^ 31 - 1)
    (env : BEnv) (σ : Sym → Int) (τ : Nat → Int) (Base : (Nat → Bool) → Prop)
    (as : List TheoryAtom) (s s' : BState) (b : Bool) (hw : s.WF) (ho : Oracle env τ s.log s.nextLit Base)
    (hl : ∀ a ∈ as, env.solverLit a.lit ≠ 0 ∧ |env.solverLit a.lit| < s.nextLit) (hp : ∀ a ∈ as, OneProduct pow a)
    (h : parseProgram pow env as s = .ok (b, s')) (hn : s'.numVars ≤ 2 ^ 32 - 1) (ha : Agree σ τ s') :
    s'.WF ∧ ∃ new, s'.log = s.log ++ new ∧
      Captures τ Base s.nextLit s'.nextLit new b (fun β => ∀ a ∈ as, atomHolds pow σ β (env.solverLit a.lit) a) := by
  obtain ⟨g, r⟩ := parseProgram_spec (σ := σ) hpow as Base s s' b hw ho hl hp h
  exact ⟨g.wf, r (by omega) ha⟩

/-- **C53** Assignments to variables and assignments to symbols correspond to each other: each variable
belongs to at most one symbol and each symbol to at most one variable. -/
theorem C53_agree (s : BState) (hw : s.WF) : (∀ σ, ∃ τ, Agree σ τ s) ∧ (∀ τ, ∃ σ, Agree σ τ s) := by
  obtain ⟨keys, vals, -⟩ := hw
  unfold Agree
  generalize s.symMap = m at keys vals
  induction m with
  | nil => simp
  | cons p m ih =>
    rw [List.map_cons, List.nodup_cons] at keys vals
    obtain ⟨ih1, ih2⟩ := ih keys.2 vals.2
    constructor
    · intro σ
      obtain ⟨τ, h⟩ := ih1 σ
      refine ⟨fun v => if v = p.2 then σ p.1 else τ v, fun q hq => ?_⟩
      rcases List.mem_cons.1 hq with rfl | hq
      · simp
      · have : q.2 ≠ p.2 := fun he => vals.1 (he ▸ List.mem_map_of_mem hq)
        simp [this, h q hq]
    · intro τ
      obtain ⟨σ, h⟩ := ih2 τ
      refine ⟨fun x => if x = p.1 then τ p.2 else σ x, fun q hq => ?_⟩
      rcases List.mem_cons.1 hq with rfl | hq
      · simp
      · have : q.1 ≠ p.1 := fun he => keys.1 (he ▸ List.mem_map_of_mem hq)
        simp [this, h q hq]

/-- **C54** The objective function handed to the propagator for an accepted program is the sum of the
terms of its `&minimize` statements minus the sum of the terms of its `&maximize` statements. -/
theorem C54_objective (pow : Int → Int → Res Int) (hpow : ∀ x y z, pow x y = .ok z → -2 ^ 31 ≤ z ∧ z ≤ 2 ^ 31 - 1)
    (env : BEnv) (as : List TheoryAtom) (s s' : BState) (hw : s.WF) (h : parseProgram pow env as s = .ok (true, s'))
    (hn : s'.numVars ≤ 2 ^ 32 - 1) (σ : Sym → Int) (τ : Nat → Int) (ha : Agree σ τ s') :
    ∃ new, s'.log = s.log ++ new ∧ programCost pow σ as = some (eventCost τ new) := by
  obtain ⟨-, new, h1, -, h3⟩ := program_frame hpow as s s' hw h
  exact ⟨new, h1, h3 (by omega) σ τ ha⟩

/-- **C55** The show statements of an accepted program are handed to the propagator one by one: each
switches the restriction of the output on and then adds, for each element in order, the signature or
the variable of the symbol. -/
theorem C55_show (pow : Int → Int → Res Int) (hpow : ∀ x y z, pow x y = .ok z → -2 ^ 31 ≤ z ∧ z ≤ 2 ^ 31 - 1)
    (env : BEnv) (as : List TheoryAtom) (s s' : BState) (hw : s.WF) (h : parseProgram pow env as s = .ok (true, s')) :
    ∃ new, s'.log = s.log ++ new ∧ showEvents pow s' as (new.filter isShow) := by
  obtain ⟨-, new, h1, h2, -⟩ := program_frame hpow as s s' hw h
  exact ⟨new, h1, h2⟩

/-- A program: `&sum(body) { 3*x - (y + -2); x } > 2*y`, `&dom { 1..3; 7 } = x`, `&distinct { x; y+1 }`,
`&disjoint { x@2; y@0 }`, `&maximize { 2*x }`, `&show { x; p/2 }`. -/
def exProgram : List TheoryAtom :=
  [{ term := .sym "__sum_b", lit := 3, elems := [⟨[exTerm], false⟩, ⟨[.sym "x"], false⟩], guard := some (.gt, .fn "*" [.num 2, .sym "y"]) },
   { term := .sym "dom", lit := 4, elems := [⟨[.fn ".." [.num 1, .num 3]], false⟩, ⟨[.num 7], false⟩], guard := some (.eq, .sym "x") },
   { term := .sym "distinct", lit := 5, elems := [⟨[.sym "x"], false⟩, ⟨[.fn "+" [.sym "y", .num 1]], false⟩], guard := none },
   { term := .sym "disjoint", lit := 5, elems := [⟨[.fn "@" [.sym "x", .num 2]], false⟩, ⟨[.fn "@" [.sym "y", .num 0]], false⟩], guard := none },
   { term := .sym "maximize", lit := 1, elems := [⟨[.fn "*" [.num 2, .sym "x"], .num 0], false⟩], guard := none },
   { term := .sym "show", lit := 1, elems := [⟨[.sym "z"], false⟩, ⟨[.fn "/" [.sym "p", .num 2]], false⟩], guard := none }]

example : (parseProgram noPow exEnv exProgram exState).toOption.map (fun r => (r.1, r.2.log, r.2.numVars)) =
    some (true, [.constraint 3 [(-4, 0), (3, 1)] 1 false, .constraint (-3) [(4, 0), (-3, 1)] (-2) false,
      .dom 4 0 [(1, 4), (7, 8)], .distinct 5 [([(1, 0)], 0), ([(1, 1)], 1)], .disjoint 5 [(2, 0)],
      .minimize (-2) 0, .show, .showVariable 2, .showSignature "p" 2], 3) := by decide +kernel

example : ∀ a ∈ exProgram, exEnv.solverLit a.lit ≠ 0 ∧ |exEnv.solverLit a.lit| < exState.nextLit := by
  intro a ha
  simp only [exProgram, List.mem_cons, List.not_mem_nil, or_false] at ha
  rcases ha with rfl | rfl | rfl | rfl | rfl | rfl <;> exact ⟨by decide, by rw [abs_lt]; decide⟩

example : ∀ a ∈ exProgram, OneProduct noPow a := by
  intro a ha h
  simp only [exProgram, List.mem_cons, List.not_mem_nil, or_false] at ha
  rcases ha with rfl | rfl | rfl | rfl | rfl | rfl <;> simp [theoryName] at h

end Clingcon.Props
