import Verif.Proof.Normalize

/-! Property C08: normalisation of relations. -/
namespace Clingcon.Props
open Clingcon Spec

/-- **C08** Whatever the relation, the clauses and constraints given to the builder capture that the
literal implies the relation (or is equivalent to it if `strict`): every truth assignment compatible
with this can be extended to the fresh literals, in exactly one way, and nothing else is compatible with
what was posted. -/
theorem C08_normalize (env : BEnv) (τ : Nat → Int) (Base : (Nat → Bool) → Prop) (lit : Int) (elems : CoVarVec)
    (op : Rel) (rhs : Int) (strict : Bool) (s : BState) (b : Bool) (s' : BState)
    (ho : Oracle env τ s.log s.nextLit Base) (h0 : lit ≠ 0) (h1 : |lit| < s.nextLit)
    (h : normalize env (addLinear env) lit elems op rhs strict s = .ok (b, s')) :
    ∃ new, s' = { s with log := s.log ++ new, nextLit := s'.nextLit } ∧
      Captures τ Base s.nextLit s'.nextLit new b
        (fun β => attached β lit strict (relHolds op (linVal τ elems) rhs)) :=
  captures_of_defines ho (defines_normalize ho elems (addOK_linear _) h0 h1 rfl rfl) rfl
    (fun β β' hb => by simp only [attached, litTrue_congr hb h1]) h

/-- **C08** Normalisation does not fail if negating the coefficients and shifting the right-hand side by
one is possible. -/
theorem C08_total (env : BEnv) (lit : Int) (elems : CoVarVec) (op : Rel) (rhs : Int) (strict : Bool) (s : BState)
    (hr : |rhs| < 2 ^ 30) (he : ∀ t ∈ elems, |t.1| < 2 ^ 30) :
    ∃ r, normalize env (addLinear env) lit elems op rhs strict s = .ok r :=
  normalize_total env lit elems op rhs strict s hr he

/-- **C08** Negated relations are complements. -/
theorem C08_negate (op : Rel) (x y : Int) : relHolds (negateRelation op) x y ↔ ¬ relHolds op x y := by
  cases op <;> simp [negateRelation, relHolds]

/-- Environment in which only the literal `1` is known to be true and nothing is rejected. -/
def exEnv : BEnv := { solverLit := id, isTrue := fun _ l => l == 1, accept := fun _ _ => true }

/-- State with two variables and nine literals. -/
def exState : BState :=
  { symMap := [(.fn "x" [] true, 0), (.fn "y" [] true, 1)], numVars := 2, nextLit := 10, log := [] }

theorem exOracle (τ : Nat → Int) : Oracle exEnv τ exState.log exState.nextLit (fun β => β 1 = true) where
  pos := by decide
  tt β h := by simpa [litTrue] using h
  loc β β' h hb := by rw [← h 1 (by decide)]; exact hb
  sound new l β h hb _ := by
    have : l = 1 := by simpa [exEnv] using h
    subst this; simpa [litTrue] using hb
  rejects new e β h := by simp [exEnv] at h

example : (normalize exEnv (addLinear exEnv) 3 [(2, 0), (-3, 1)] .ne 4 false exState).toOption.map (fun r => r.2.log) =
    some [.clause [10, 11, -3], .clause [-10, -11], .clause [3, -10], .clause [3, -11],
      .constraint 10 [(2, 0), (-3, 1)] 3 false, .constraint 11 [(-2, 0), (3, 1)] (-5) false] := by decide

example : (normalize exEnv (addLinear exEnv) 3 [(2, 0), (-3, 1)] .eq 4 true exState).toOption.map (fun r => r.2.log.length) =
    some 7 := by decide

end Clingcon.Props
