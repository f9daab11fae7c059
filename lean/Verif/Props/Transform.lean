import Verif.Proof.Transform

/-! Properties of the rewriting of statements (C12, C13, C60). -/
namespace Clingcon.Props
open Clingcon Spec

/-- C12: a rewritten statement is satisfied by exactly the same interpretations. -/
theorem C12_shift {Θ : Type} (I : Interp Θ) {n n' : Node} (h : shiftRule n = .ok n') :
    ruleHolds I n ↔ ruleHolds I n' := by
  unfold shiftRule at h
  split at h
  · next sign value body =>
    split at h
    · simp at h; rw [h]
    · next hv =>
      have hi : ruleHolds I (.rule (.literal sign (.boolConst value)) body) ↔ noBody I ([] ++ body) := by
        have hf : ∀ θ, ¬ litHolds I θ (.literal sign (.boolConst value)) := by
          intro θ
          cases sign <;> cases value <;> simp_all [litHolds, thAtomHolds]
        constructor
        · intro hr θ hb; exact hf θ (hr θ hb)
        · intro hr θ hb; exact absurd hb (hr θ)
      rw [shiftBody_sat I body [] hi h, hi]
  · simp at h; rw [h]

/-- The head of an integrity constraint: it is false under all interpretations. -/
def falseHead : Node → Prop
  | .literal sign (.boolConst value) => (value = true ↔ sign = .neg)
  | _ => False

/-- C12: of an integrity constraint, the first linear theory atom in the body is moved into the head,
with the complementary relation unless the literal is negated. -/
theorem C12_form {head : Node} {front rest elems : List Node} {sign : Sign} {term rhs : Node} {op : String}
    {r : Rel} (hh : falseHead head) (hf : ∀ b ∈ front, ¬ linearLit b ∧ plainLit b) (hl : linearName term)
    (hr : relOf op = some r) :
    ∃ op' r', relOf op' = some r' ∧ (∀ a b, relHolds r' a b ↔ (if sign = .neg then relHolds r a b else ¬ relHolds r a b)) ∧
      shiftRule (.rule head (front ++ .literal sign (.theoryAtom term elems (some op) rhs) :: rest)) =
        .ok (.rule (.theoryAtom term elems (some op') rhs) (front ++ rest)) := by
  match head, hh with
  | .literal s (.boolConst value), hh =>
    have hc : ¬ ((value = false ∧ s = .neg) ∨ (value = true ∧ s ≠ .neg)) := by
      simp only [falseHead] at hh
      cases value <;> simp_all
    simp only [shiftRule, if_neg hc]
    rw [shiftBody_skip front [] _ hf]
    by_cases hs : sign = .neg
    · refine ⟨op, r, hr, by simp [hs], ?_⟩
      unfold shiftBody
      simp [matchNode_of_linear hl, bind, Except.bind, hs]
    · obtain ⟨op', ho⟩ := negateRel_ok hr
      obtain ⟨r1, r', h1, h2, h3⟩ := negateRel_sem ho
      rw [hr] at h1; cases h1
      refine ⟨op', r', h2, by simpa [hs] using h3, ?_⟩
      unfold shiftBody
      simp [matchNode_of_linear hl, bind, Except.bind, hs, ho]

/-- C12: all other statements are unchanged: those that are not rules, rules whose head is not false, and
rules without linear theory atoms in the body. -/
theorem C12_unchanged {n : Node}
    (h : ∀ head body, n = .rule head body → falseHead head → ∀ b ∈ body, ¬ linearLit b ∧ plainLit b) :
    shiftRule n = .ok n := by
  unfold shiftRule
  split
  · next sign value body =>
    split
    · rfl
    · next hc =>
      have hb := h _ body rfl (by
        simp only [falseHead]
        cases value <;> cases sign <;> simp_all)
      have := shiftBody_skip (ast := .rule (.literal sign (.boolConst value)) body) body [] [] hb
      simp only [List.append_nil] at this
      rw [this]; rfl
  · rfl

/-- C12: an atom without a guard that would have to be shifted is rejected. -/
theorem C12_reject {head : Node} {front rest elems : List Node} {sign : Sign} {term rhs : Node}
    (hh : falseHead head) (hf : ∀ b ∈ front, ¬ linearLit b ∧ plainLit b) (hl : linearName term) :
    shiftRule (.rule head (front ++ .literal sign (.theoryAtom term elems none rhs) :: rest)) =
      .error .runtime := by
  match head, hh with
  | .literal s (.boolConst value), hh =>
    have hc : ¬ ((value = false ∧ s = .neg) ∨ (value = true ∧ s ≠ .neg)) := by
      simp only [falseHead] at hh
      cases value <;> simp_all
    simp only [shiftRule, if_neg hc]
    rw [shiftBody_skip front [] _ hf]
    unfold shiftBody
    simp [matchNode_of_linear hl, bind, Except.bind]

/-- `:- p, not &sum { x } < 3, &sum { y } = 1.` -/
def exRule : Node :=
  .rule (.literal .none (.boolConst false))
    [.literal .none (.other "p" []),
     .literal .neg (.theoryAtom (.function "sum" [] false) [.element [.function "x" [] false] []] (some "<") (.symTerm (.num 3))),
     .literal .none (.theoryAtom (.function "sum" [] false) [.element [.function "y" [] false] []] (some "=") (.symTerm (.num 1)))]

example : ∃ n', shiftRule exRule = .ok n' ∧ n' = .rule
    (.theoryAtom (.function "sum" [] false) [.element [.function "x" [] false] []] (some "<") (.symTerm (.num 3)))
    [.literal .none (.other "p" []),
     .literal .none (.theoryAtom (.function "sum" [] false) [.element [.function "y" [] false] []] (some "=") (.symTerm (.num 1)))] :=
  ⟨_, rfl, rfl⟩

example : falseHead (.literal .dneg (.boolConst false)) ∧ linearName (.function "diff" [] false) ∧
    relOf ">=" = some .ge ∧
    ∀ b ∈ [Node.literal .none (.other "p" [])], ¬ linearLit b ∧ plainLit b := by
  simp [falseHead, linearName, relOf, linearLit, plainLit]

theorem bindR {α β : Type} {x : Res α} {f : α → Res β} {r : β} (h : (x >>= f) = .ok r) : ∃ a, x = .ok a ∧ f a = .ok r := by
  cases x with
  | error e => cases h
  | ok a => exact ⟨a, rfl, h⟩

theorem mapM_all {α β : Type} {f : α → Res β} {R : α → β → Prop} (hf : ∀ a b, f a = .ok b → R a b) : ∀ {l : List α} {r : List β}, l.mapM f = .ok r → List.Forall₂ R l r
  | [], r, h => by cases h; exact .nil
  | a :: l, r, h => by
    rw [List.mapM_cons] at h
    obtain ⟨b, h1, h⟩ := bindR h
    obtain ⟨bs, h2, h⟩ := bindR h
    cases h
    exact .cons (hf a b h1) (mapM_all hf h2)

/-- C12: each unpooled statement is rewritten to one statement in the same order; before tagging theory atoms according to their position (see `C60_tags`), it is
satisfied by exactly the same interpretations, and it is left as it is without shifting. -/
theorem C12_transform {unpool : Node → List Node} {shift : Bool} {n : Node} {rs : List Node} (h : transform unpool shift n = .ok rs) :
    List.Forall₂ (fun m r => ∃ m', transformOne false m' = .ok r ∧ (shift = false → m' = m) ∧ ∀ (Θ : Type) (I : Interp Θ), ruleHolds I m ↔ ruleHolds I m') (unpool n) rs := by
  refine mapM_all (fun m r hr => ?_) h
  unfold transformOne at hr
  cases shift with
  | false => exact ⟨m, hr, fun _ => rfl, fun _ _ => Iff.rfl⟩
  | true =>
    obtain ⟨m', h1, h2⟩ := bindR hr
    exact ⟨m', h2, fun h => (by cases h), fun Θ I => C12_shift I h1⟩

example : ∃ r, transform (fun n => [n, n]) true exRule = .ok [r, r] ∧ ∃ head body, r = .rule head body ∧ body.length = 2 := ⟨_, rfl, _, _, rfl, rfl⟩

/-- C13: if ground instances of two elements of a rewritten atom have the same tuple, then they stem from the
same element and from substitutions that agree on all named variables. -/
theorem C13_distinct {emb : Sym → Term} (hemb : Function.Injective emb) {elems elems' : List Node}
    (h : rewriteElems (if elems.length > 1 then 0 else -1) elems = .ok elems')
    {i j : Nat} {e f e' f' : Node} (hi : elems[i]? = some e) (hj : elems[j]? = some f)
    (hi' : elems'[i]? = some e') (hj' : elems'[j]? = some f') {θ θ' : String → Sym}
    (heq : groundTuple emb θ e' = groundTuple emb θ' f') :
    i = j ∧ ∀ x ∈ nodeVars e, x ≠ "_" → θ x = θ' x := by
  obtain ⟨hlen, hg⟩ := rewriteElems_get h
  obtain ⟨e1, h1, h2⟩ := hg i e hi
  obtain ⟨f1, h3, h4⟩ := hg j f hj
  rw [hi'] at h1; rw [hj'] at h3
  cases h1; cases h3
  have il : i < elems.length := (List.getElem?_eq_some_iff.mp hi).1
  have jl : j < elems.length := (List.getElem?_eq_some_iff.mp hj).1
  have key : i = j := by
    by_cases hn : elems.length > 1
    · rw [if_pos hn] at h2 h4
      obtain ⟨t, c, vs, rfl, rfl, -, -⟩ := rewriteTuple_vars h2
      obtain ⟨u, d, ws, rfl, rfl, -, -⟩ := rewriteTuple_vars h4
      simp [groundTuple, groundTerms, groundTerm] at heq
      have := hemb heq.2.1
      simp at this
      exact_mod_cast this
    · omega
  refine ⟨key, ?_⟩
  subst key
  rw [hi'] at hj'; cases hj'
  obtain ⟨t, c, vs, rfl, rfl, -, hv⟩ := rewriteTuple_vars h2
  intro x hx hu
  refine groundTerms_inj hemb _ heq x ?_
  simp only [nodeVars, listVars, List.append_nil, List.mem_append] at hx
  by_cases ht : x ∈ nodeVars t
  · exact listVars_mem (n := t) (by simp) ht
  · have hc : x ∈ listVars c := by tauto
    exact listVars_mem (n := .var x) (by simp [(hv x).mpr ⟨hc, ht, hu⟩]) (by simp [nodeVars])

/-- C13: rewriting an element keeps its term and its condition, and all variables added to the tuple occur in
the condition (so that a safe element stays safe). -/
theorem C13_content {k : Int} {elems elems' : List Node} (h : rewriteElems k elems = .ok elems')
    {i : Nat} {e e' : Node} (hi : elems[i]? = some e) (hi' : elems'[i]? = some e') :
    ∃ t, elemTerms e = [t] ∧ (elemTerms e').head? = some t ∧ elemCond e' = elemCond e ∧
      ∀ x ∈ nodeVars e', x ∈ nodeVars e := by
  obtain ⟨-, hg⟩ := rewriteElems_get h
  obtain ⟨e1, h1, h2⟩ := hg i e hi
  rw [hi'] at h1; cases h1
  obtain ⟨t, c, vs, rfl, rfl, -, hv⟩ := rewriteTuple_vars h2
  refine ⟨t, rfl, rfl, rfl, fun x hx => ?_⟩
  have hvars : ∀ l : List String, listVars (l.map .var) = l := by
    intro l
    induction l with
    | nil => rfl
    | cons a l ih => simp [listVars, nodeVars, ih]
  have happ : ∀ l m : List Node, listVars (l ++ m) = listVars l ++ listVars m := by
    intro l m
    induction l with
    | nil => rfl
    | cons a l ih => simp [listVars, ih]
  simp only [nodeVars, happ, hvars, List.mem_append] at hx ⊢
  rcases hx with ((hx | hx) | hx) | hx
  · exact Or.inl hx
  · split at hx <;> simp [listVars, nodeVars] at hx
  · exact Or.inr ((hv x).mp hx).1
  · exact Or.inr hx

/-- `{ X : p(X,Y); X : q(X,Y,_) }` -/
def exElems : List Node :=
  [.element [.var "X"] [.literal .none (.other "p" [.var "X", .var "Y"])],
   .element [.var "X"] [.literal .none (.other "q" [.var "X", .var "Y", .var "_"])]]

example : rewriteElems (if exElems.length > 1 then 0 else -1) exElems = .ok
    [.element [.var "X", .symTerm (.num 0), .var "Y"] [.literal .none (.other "p" [.var "X", .var "Y"])],
     .element [.var "X", .symTerm (.num 1), .var "Y"] [.literal .none (.other "q" [.var "X", .var "Y", .var "_"])]] :=
  by rfl

/-- An embedding of symbols into terms as needed above exists. -/
def exEmb : Sym → Term
  | .num n => .num n
  | .str s => .other [.sym s]
  | .fn f as p => .fn f (.num (if p then 1 else 0) :: exEmbs as)
where
  /-- Lists of symbols. -/
  exEmbs : List Sym → List Term
    | [] => []
    | a :: as => exEmb a :: exEmbs as

mutual
theorem exEmb_inj : ∀ a b : Sym, exEmb a = exEmb b → a = b
  | .num m, .num n, h => by simpa [exEmb] using h
  | .str m, .str n, h => by simpa [exEmb] using h
  | .fn f as p, .fn g bs q, h => by
    simp only [exEmb, Term.fn.injEq, List.cons.injEq, Term.num.injEq] at h
    obtain ⟨rfl, h1, h2⟩ := h
    rw [exEmbs_inj as bs h2]
    cases p <;> cases q <;> simp_all
  | .num _, .str _, h => by simp [exEmb] at h
  | .num _, .fn _ _ _, h => by simp [exEmb] at h
  | .str _, .num _, h => by simp [exEmb] at h
  | .str _, .fn _ _ _, h => by simp [exEmb] at h
  | .fn _ _ _, .num _, h => by simp [exEmb] at h
  | .fn _ _ _, .str _, h => by simp [exEmb] at h
theorem exEmbs_inj : ∀ a b : List Sym, exEmb.exEmbs a = exEmb.exEmbs b → a = b
  | [], [], _ => rfl
  | [], _ :: _, h => by simp [exEmb.exEmbs] at h
  | _ :: _, [], h => by simp [exEmb.exEmbs] at h
  | a :: as, b :: bs, h => by
    simp only [exEmb.exEmbs, List.cons.injEq] at h
    rw [exEmb_inj a b h.1, exEmbs_inj as bs h.2]
end

example : Function.Injective exEmb := fun a b h => exEmb_inj a b h

/-- C60: atoms in the head are tagged as implications and atoms in the body as equivalences; the elements
of each atom are rewritten independently of the others. -/
theorem C60_tags {head r : Node} {body : List Node}
    (h : transformOne false (.rule head body) = .ok r) :
    ∃ head' body', r = .rule head' body' ∧ body'.length = body.length ∧
      (∀ name elems op rhs, head = .theoryAtom (.function name [] false) elems op rhs →
        name ∈ ["sum", "nsum", "diff"] →
        ∃ elems', rewriteElems (if elems.length > 1 then 0 else -1) elems = .ok elems' ∧
          head' = .theoryAtom (.function ("__" ++ name ++ "_h") [] false) elems' op rhs) ∧
      (∀ (i : Nat) sign name elems op rhs,
        body[i]? = some (.literal sign (.theoryAtom (.function name [] false) elems op rhs)) →
        name ∈ ["sum", "nsum", "diff"] →
        ∃ elems', rewriteElems (if elems.length > 1 then 0 else -1) elems = .ok elems' ∧
          body'[i]? = some (.literal sign (.theoryAtom (.function ("__" ++ name ++ "_b") [] false) elems' op rhs))) := by
  simp only [transformOne, bind, Except.bind, rewriteNode] at h
  simp only [Bool.false_eq_true, if_false] at h
  split at h
  · cases h
  · next r1 h1 =>
    split at h1
    · cases h1
    · next r2 h2 =>
      split at h1
      · cases h1
      · next r3 h3 =>
        obtain ⟨head', b2⟩ := r2
        have hb : b2 = false := by rcases rewriteNode_flag head h2 with e | e <;> exact e
        subst hb
        obtain ⟨body', b3⟩ := r3
        simp at h h1
        obtain ⟨hl, hg⟩ := rewriteNodes_get h3
        have sub : ∀ {name : String}, name ∈ ["sum", "nsum", "diff"] → name ∈ rewrittenNames := by
          intro name hn
          simp [rewrittenNames] at hn ⊢
          tauto
        refine ⟨head', body', by rw [← h, ← h1], hl, ?_, ?_⟩
        · rintro name elems op rhs rfl hn
          obtain ⟨es', he, -, hr⟩ := rewriteNode_atom (sub hn) h2
          refine ⟨es', he, ?_⟩
          rw [hr, if_pos hn]; rfl
        · intro i sign name elems op rhs hi hn
          obtain ⟨n', h5, h6⟩ := hg i _ hi
          obtain ⟨a', b4, h7, h8⟩ := rewriteNode_literal h6
          obtain ⟨es', he, -, hr⟩ := rewriteNode_atom (sub hn) h7
          refine ⟨es', he, ?_⟩
          rw [h5, h8, hr, if_pos hn]; rfl

example : transformOne false (.rule
    (.theoryAtom (.function "sum" [] false) [.element [.function "x" [] false] []] (some "<") (.symTerm (.num 3)))
    [.literal .none (.other "p" []),
     .literal .none (.theoryAtom (.function "diff" [] false) [.element [.function "y" [] false] []] (some "=") (.symTerm (.num 1)))]) =
    .ok (.rule
    (.theoryAtom (.function "__sum_h" [] false) [.element [.function "x" [] false] []] (some "<") (.symTerm (.num 3)))
    [.literal .none (.other "p" []),
     .literal .none (.theoryAtom (.function "__diff_b" [] false) [.element [.function "y" [] false] []] (some "=") (.symTerm (.num 1)))]) :=
  by rfl

end Clingcon.Props
