import Verif.Proof.Parsing

/-! Properties C07 (meaning of linear terms) and C14 (strings). -/
namespace Clingcon.Props
open Clingcon Spec

/-- **C14** A string printed in the way of clingo evaluates to the string itself. -/
theorem C14_unquote (s : String) :
    evalName (String.ofList ('"' :: escape s.toList ++ ['"'])) = .ok (.str s) := by
  unfold evalName
  simp only [String.toList_ofList]
  rw [if_pos ⟨by simp, by rw [List.getLast?_append]; simp⟩, if_neg (by simp)]
  have : (('"' :: escape s.toList ++ ['"']).tail.dropLast) = escape s.toList := by simp
  rw [this, unquote, unquoteAux_escape]
  simp [Except.map]

/-- **C14** All other names denote constants of that name. -/
theorem C14_name (s : String) (h : s.toList.head? ≠ some '"' ∨ s.toList.getLast? ≠ some '"') :
    evalName s = .ok (.fn s [] true) := by
  unfold evalName
  rw [if_neg (by tauto)]

example : evalName "\"a\\\"\\n\\\\\"" = .ok (.str "a\"\n\\") := by decide

/-- **C07** A parsed term has the arithmetic value of the term for every assignment, where variables are
identified with symbols by the table of symbols. -/
theorem C07_value (pow : Int → Int → Res Int) (hpow : ∀ x y z, pow x y = .ok z → -2 ^ 31 ≤ z ∧ z ≤ 2 ^ 31 - 1)
    (t : Term) (s s' : BState) (res : CoVarVec) (hw : s.WF) (h : parseElem pow linOps t [] s = .ok (res, s'))
    (hn : s'.numVars ≤ 2 ^ 32 - 1) (σ : Sym → Int) (τ : Nat → Int) (ha : Agree σ τ s') :
    value names (powers pow) σ t = some (linVal τ res) := by
  obtain ⟨-, -, more, h1, h2, -⟩ := parseElem_spec names_spec powers_spec
    (fun x y z h => by rw [val_fits]; have := hpow x y z h; omega) t [] res s s' hw h
  rw [List.nil_append] at h1; subst h1
  exact h2 (by omega) σ τ _ (lawful_lin τ) ha

/-- **C07** All coefficients fit into 32 bits, and the table of symbols is only extended. -/
theorem C07_fits (pow : Int → Int → Res Int) (hpow : ∀ x y z, pow x y = .ok z → -2 ^ 31 ≤ z ∧ z ≤ 2 ^ 31 - 1)
    (t : Term) (ht : numsFit t) (s s' : BState) (res : CoVarVec) (hw : s.WF)
    (h : parseElem pow linOps t [] s = .ok (res, s')) :
    (∀ u ∈ res, -2 ^ 31 ≤ u.1 ∧ u.1 ≤ 2 ^ 31 - 1) ∧ s'.WF ∧ (∃ more, s'.symMap = s.symMap ++ more) ∧
      s'.log = s.log ∧ s'.nextLit = s.nextLit := by
  obtain ⟨k1, k2, more, h1, -, h2⟩ := parseElem_spec names_spec powers_spec
    (fun x y z h => by rw [val_fits]; have := hpow x y z h; omega) t [] res s s' hw h
  rw [List.nil_append] at h1; subst h1
  refine ⟨fun u hu => ?_, k1, k2.sym, k2.log, k2.next⟩
  have := h2 ht u hu
  rw [val_fits] at this
  omega

/-- **C07** Linear terms with small coefficients are accepted. -/
theorem C07_total (pow : Int → Int → Res Int) (t : Term) (h1 : linearTerm t) (h2 : smallTerm t) (s : BState) :
    ∃ res s', parseElem pow linOps t [] s = .ok (res, s') := by
  obtain ⟨more, s', h, -⟩ := parseElem_success pow t [] s h1 h2
  exact ⟨_, _, h⟩

/-- `3*x - (y + -2)` -/
def exTerm : Term :=
  .fn "-" [.fn "*" [.num 3, .sym "x"], .fn "+" [.sym "y", .fn "-" [.num 2]]]

example : (parseElem (fun _ _ => .error .runtime) linOps exTerm [] { symMap := [], numVars := 0, nextLit := 2, log := [] }).toOption.map
    (fun r => (r.1, r.2.symMap)) =
    some ([(3, 0), (-1, 1), (2, 4294967295)], [(.fn "x" [] true, 0), (.fn "y" [] true, 1)]) := by
  decide

example : linearTerm exTerm ∧ smallTerm exTerm ∧ numsFit exTerm := by
  simp [linearTerm, smallTerm, exTerm, magnitude, hasVar, numsFit, numsFits]

end Clingcon.Props
