import Verif.Proof.Composed
import Verif.Props.Program
import Verif.Props.ConBuilder

/-! C71: what a program is turned into. -/
set_option linter.unusedVariables false
namespace Clingcon.Props
open Clingcon Spec

/-- No strict constraint over a product is posted, see `C11_negation`. -/
def NoStrictProduct (evs : List Event) : Prop :=
  ∀ e ∈ evs, ∀ lit coab a b coc c rhs, e = .nonlinear lit coab a b coc c rhs true → coab = 0

/-- **C71** The calls of the parser are of the form the constraint builder relies on, for every program: literals are known, coefficients are not
zero, variables are valid and occur once in each sum, sizes are positive, and domains are in canonical form. -/
theorem C71_parsed (pow : Int → Int → Res Int) (hpow : ∀ x y z, pow x y = .ok z → -2 ^ 31 ≤ z ∧ z ≤ 2 ^ 31 - 1) (env : BEnv)
    (as : List TheoryAtom) (s s' : BState) (b : Bool) (hw : s.WF) (hn : 1 < s.nextLit)
    (hl : ∀ a ∈ as, env.solverLit a.lit ≠ 0 ∧ |env.solverLit a.lit| < s.nextLit) (h : parseProgram pow env as s = .ok (b, s'))
    (hv : s'.numVars ≤ 2 ^ 32 - 1) : ∃ evs, s'.log = s.log ++ evs ∧ ∀ e ∈ evs, properEv s'.nextLit e :=
  (parseProgram_neat hpow as s s' b hw hn hl h).2 (by omega)

/-- **C71** The calls of the constraint builder are of the form the solver relies on. -/
theorem C71_handed (env : PEnv) (hs : ∀ l, (env.sort l).Perm l) (evs : List Event) (p p' : PState) (b : Bool) (hn : 1 < p.nextLit)
    (he : ∀ e ∈ evs, properEv p.nextLit e) (h : bEvents env evs p = .ok (b, p')) :
    p.nextLit ≤ p'.nextLit ∧ ∃ new, p'.log = p.log ++ new ∧ ∀ e ∈ new, properP p'.nextLit e :=
  pneat_events hs hn evs he p b p' (le_refl _) h

/-- **C71** (partial: nonlinear sums with several products and strict ones with a product are left out, because the code is wrong for them, see
`C10_product_lost` and `C11_negation`.) A program is parsed and the calls of the parser are handed to the constraint builder. Then the clauses, domains, constraints over
one variable and constraints that are posted capture that all theory atoms of the program have their meaning: a truth assignment to the literals of
the program and an assignment of integers to the symbols can be extended to the auxiliary literals, in exactly one way, such that everything posted
holds, if and only if every theory atom holds. If one of the two reports `false`, then there is no such assignment. -/
theorem C71_program_partial (pow : Int → Int → Res Int) (hpow : ∀ x y z, pow x y = .ok z → -2 ^ 31 ≤ z ∧ z ≤ 2 ^ 31 - 1)
    (env : BEnv) (penv : PEnv) (σ : Sym → Int) (τ : Nat → Int) (Base : (Nat → Bool) → Prop)
    (as : List TheoryAtom) (s s' : BState) (p p' : PState) (evs : List Event) (b b' : Bool) (hw : s.WF)
    (ho : Oracle env τ s.log s.nextLit Base) (hp : POracle penv τ p.log s.nextLit Base)
    (hl : ∀ a ∈ as, env.solverLit a.lit ≠ 0 ∧ |env.solverLit a.lit| < s.nextLit) (h1 : ∀ a ∈ as, OneProduct pow a)
    (h : parseProgram pow env as s = .ok (b, s')) (hv : s'.numVars ≤ 2 ^ 32 - 1) (ha : Agree σ τ s')
    (he : s'.log = s.log ++ evs) (hs : NoStrictProduct evs) (hq : p.nextLit = s'.nextLit) (h' : bEvents penv evs p = .ok (b', p')) :
    ∃ new, p'.log = p.log ++ new ∧ (∀ e ∈ new, properP p'.nextLit e) ∧
      PCaptures τ Base s.nextLit p'.nextLit new (b && b') (fun β => ∀ a ∈ as, atomHolds pow σ β (env.solverLit a.lit) a) := by
  obtain ⟨-, evs1, e1, c1⟩ := C53_program_partial pow hpow env σ τ Base as s s' b hw ho hl h1 h hv ha
  obtain rfl : evs1 = evs := List.append_cancel_left (e1.symm.trans he)
  obtain ⟨evs2, e2, hp2⟩ := C71_parsed pow hpow env as s s' b hw ho.pos hl h hv
  obtain rfl : evs2 = evs1 := List.append_cancel_left (e2.symm.trans he)
  have hp' : POracle penv τ p.log p.nextLit Base := hp.grow (by rw [hq]; exact c1.mono)
  obtain ⟨new, e3, c2⟩ := pspec_events evs2 Base p (le_of_eq hq.symm) hp' hp2 hs h'
  obtain ⟨-, new', e4, q⟩ := C71_handed penv hp.sort evs2 p p' b' hp'.pos (by rw [hq]; exact hp2) h'
  obtain rfl : new' = new := List.append_cancel_left (e4.symm.trans e3)
  rw [hq] at c2
  exact ⟨new', e3, q, captures_comp ho.loc c1 c2⟩

/-! ### A concrete case -/

theorem exPOracle (τ : Nat → Int) : POracle plainEnv τ [] exState.nextLit (fun β => β 1 = true) where
  pos := by decide
  tt β h := by simpa [litTrue] using h
  loc β β' h hb := by rw [← h 1 (by decide)]; exact hb
  sound _ _ _ _ h := by cases h
  rejects _ _ _ h := by cases h
  sort l := List.Perm.refl l

/-- The calls of the parser for the program `exProgram`. -/
def exEvs : List Event := [.constraint 3 [(-4, 0), (3, 1)] 1 false, .constraint (-3) [(4, 0), (-3, 1)] (-2) false,
  .dom 4 0 [(1, 4), (7, 8)], .distinct 5 [([(1, 0)], 0), ([(1, 1)], 1)], .disjoint 5 [(2, 0)],
  .minimize (-2) 0, .show, .showVariable 2, .showSignature "p" 2]

/-- What the constraint builder turns them into. -/
def exPosts : List PEv := [.con (.sum 3 1 [(-4, 0), (3, 1)]), .con (.sum (-3) (-2) [(4, 0), (-3, 1)]), .dom 4 0 [(1, 4), (7, 8)],
  .clause [10, 11, -5], .clause [-10, -11], .clause [5, -10], .clause [5, -11], .con (.sum 10 0 [(1, 0), (-1, 1)]), .con (.sum 11 (-2) [(-1, 0), (1, 1)])]

/-- The hypotheses of `C71_program_partial` are met. -/
example : (parseProgram noPow exEnv exProgram exState).toOption.map (fun r => (r.1, r.2.log, r.2.nextLit, r.2.numVars)) = some (true, exState.log ++ exEvs, 10, 3) ∧
    bEvents plainEnv exEvs ⟨10, []⟩ = .ok (true, ⟨12, [] ++ exPosts⟩) ∧ NoStrictProduct exEvs ∧
    (∀ τ, Oracle exEnv τ exState.log exState.nextLit (fun β => β 1 = true)) ∧ ∀ τ, POracle plainEnv τ [] exState.nextLit (fun β => β 1 = true) := by
  refine ⟨by decide +kernel, by decide +kernel, ?_, exOracle, exPOracle⟩
  intro e he lit coab a b coc c rhs h
  subst h
  simp [exEvs] at he

end Clingcon.Props
