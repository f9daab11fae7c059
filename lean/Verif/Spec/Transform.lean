import Verif.Model.Transform
import Verif.Spec.Relations

/-! Meaning of non-ground rules, and of elements after grounding. -/
namespace Clingcon.Spec
open Clingcon

/-- Interpretation of the parts of a rule under the substitutions `Θ` of its global variables: truth of
atoms that are not linear theory atoms, and the two sides of linear theory atoms. -/
structure Interp (Θ : Type) where
  atom : Node → Θ → Prop
  lhs : Node → List Node → Θ → Int
  rhs : Node → Θ → Int

/-- The relation a relation symbol stands for. -/
def relOf (s : String) : Option Rel :=
  if s = "<=" then some .le else if s = ">=" then some .ge else if s = "<" then some .lt
  else if s = ">" then some .gt else if s = "=" then some .eq else if s = "!=" then some .ne else none

/-- Name of a linear theory atom. -/
def linearName : Node → Prop
  | .function name args ext => (name = "sum" ∨ name = "diff") ∧ args = [] ∧ ext = false
  | _ => False

open Classical in
/-- Truth of an atom: a linear theory atom with a relation compares its two sides. -/
noncomputable def thAtomHolds {Θ : Type} (I : Interp Θ) (θ : Θ) (n : Node) : Prop :=
  match n with
  | .boolConst v => v = true
  | .theoryAtom term elems (some op) rhs =>
    match relOf op with
    | some r => if linearName term then relHolds r (I.lhs term elems θ) (I.rhs rhs θ) else I.atom n θ
    | none => I.atom n θ
  | _ => I.atom n θ

/-- Truth of a literal. -/
noncomputable def litHolds {Θ : Type} (I : Interp Θ) (θ : Θ) (n : Node) : Prop :=
  match n with
  | .literal .none a => thAtomHolds I θ a
  | .literal .neg a => ¬ thAtomHolds I θ a
  | .literal .dneg a => ¬ ¬ thAtomHolds I θ a
  | n => thAtomHolds I θ n

/-- A rule is satisfied if, for all substitutions, its head holds whenever its body holds. -/
def ruleHolds {Θ : Type} (I : Interp Θ) : Node → Prop
  | .rule head body => ∀ θ, (∀ b ∈ body, litHolds I θ b) → litHolds I θ head
  | _ => True

mutual
/-- The variables in a node. -/
def nodeVars : Node → List String
  | .var name => [name]
  | .rule head body => nodeVars head ++ listVars body
  | .literal _ atom => nodeVars atom
  | .boolConst _ => []
  | .theoryAtom term elems _ rhs => nodeVars term ++ listVars elems ++ nodeVars rhs
  | .element terms cond => listVars terms ++ listVars cond
  | .symTerm _ => []
  | .function _ args _ => listVars args
  | .other _ children => listVars children
/-- The variables in a list of nodes. -/
def listVars : List Node → List String
  | [] => []
  | n :: ns => nodeVars n ++ listVars ns
end

mutual
/-- Grounding of a theory term: variables are replaced by symbols, which are turned into theory terms by
`emb`. Theory terms are not evaluated. -/
def groundTerm (emb : Sym → Term) (θ : String → Sym) : Node → Term
  | .var x => emb (θ x)
  | .symTerm s => emb s
  | .function name args _ => .fn name (groundTerms emb θ args)
  | .other kind children => .fn kind (groundTerms emb θ children)
  | .rule head body => .tuple (groundTerm emb θ head :: groundTerms emb θ body)
  | .literal _ atom => groundTerm emb θ atom
  | .boolConst _ => .num 0
  | .theoryAtom term elems _ rhs =>
    .tuple (groundTerm emb θ term :: groundTerm emb θ rhs :: groundTerms emb θ elems)
  | .element terms cond => .tuple [.tuple (groundTerms emb θ terms), .tuple (groundTerms emb θ cond)]
/-- Grounding of a list of theory terms. -/
def groundTerms (emb : Sym → Term) (θ : String → Sym) : List Node → List Term
  | [] => []
  | n :: ns => groundTerm emb θ n :: groundTerms emb θ ns
end

/-- The tuple of a ground instance of an element. -/
def groundTuple (emb : Sym → Term) (θ : String → Sym) : Node → List Term
  | .element terms _ => groundTerms emb θ terms
  | _ => []

/-- The terms of an element. -/
def elemTerms : Node → List Node
  | .element terms _ => terms
  | _ => []

/-- The condition of an element. -/
def elemCond : Node → List Node
  | .element _ cond => cond
  | _ => []

end Clingcon.Spec
