import Verif.Spec.Transform
import Mathlib.Data.String.Basic

/-! Proofs about the rewriting of statements. -/
namespace Clingcon
open Spec

theorem negateRel_sem {op op' : String} (h : negateRel op = .ok op') :
    ∃ r r', relOf op = some r ∧ relOf op' = some r' ∧ ∀ a b, relHolds r' a b ↔ ¬ relHolds r a b := by
  unfold negateRel at h
  split at h
  · next e => cases h; subst e; exact ⟨.eq, .ne, rfl, rfl, fun a b => by simp [relHolds]⟩
  split at h
  · next e => cases h; subst e; exact ⟨.ne, .eq, rfl, rfl, fun a b => by simp [relHolds]⟩
  split at h
  · next e => cases h; subst e; exact ⟨.lt, .ge, rfl, rfl, fun a b => by simp [relHolds]⟩
  split at h
  · next e => cases h; subst e; exact ⟨.le, .gt, rfl, rfl, fun a b => by simp [relHolds]⟩
  split at h
  · next e => cases h; subst e; exact ⟨.gt, .le, rfl, rfl, fun a b => by simp [relHolds]⟩
  split at h
  · next e => cases h; subst e; exact ⟨.ge, .lt, rfl, rfl, fun a b => by simp [relHolds]⟩
  · cases h

theorem negateRel_ok {op : String} {r : Rel} (h : relOf op = some r) : ∃ op', negateRel op = .ok op' := by
  unfold relOf at h
  split at h
  · next e => subst e; exact ⟨_, rfl⟩
  split at h
  · next e => subst e; exact ⟨_, rfl⟩
  split at h
  · next e => subst e; exact ⟨_, rfl⟩
  split at h
  · next e => subst e; exact ⟨_, rfl⟩
  split at h
  · next e => subst e; exact ⟨_, rfl⟩
  split at h
  · next e => subst e; exact ⟨_, rfl⟩
  · cases h

theorem matchNode_linear {t : Node} (h : matchNode t ["sum", "diff"] = .ok true) : linearName t := by
  cases t <;> simp [matchNode] at h
  next name args ext =>
    by_cases he : ext = true
    · simp [he] at h
    · simp only [he] at h
      cases args <;> simp at h
      exact ⟨h, rfl, by simpa using he⟩

theorem matchNode_of_linear {t : Node} (h : linearName t) : matchNode t ["sum", "diff"] = .ok true := by
  cases t <;> simp [linearName] at h
  next name args ext =>
    obtain ⟨h1, h2, h3⟩ := h
    subst h2 h3
    simp [matchNode]
    exact h1

/-- Satisfaction of an integrity constraint. -/
def noBody {Θ : Type} (I : Interp Θ) (body : List Node) : Prop :=
  ∀ θ, ¬ ∀ b ∈ body, litHolds I θ b

theorem shiftBody_sat {Θ : Type} (I : Interp Θ) {ast : Node} : ∀ (rest front : List Node) {r : Node},
    (ruleHolds I ast ↔ noBody I (front ++ rest)) →
    shiftBody ast front rest = .ok r → (ruleHolds I r ↔ noBody I (front ++ rest))
  | [], front, r, hi, h => by
    simp only [shiftBody, Except.ok.injEq] at h
    subst h; exact hi
  | lit :: rest, front, r, hi, h => by
    have step : shiftBody ast (front ++ [lit]) rest = .ok r →
        (ruleHolds I r ↔ noBody I (front ++ lit :: rest)) := by
      intro h'
      have := shiftBody_sat I rest (front ++ [lit]) (r := r) (by simpa using hi) h'
      simpa using this
    unfold shiftBody at h
    split at h
    · next sign term elems op rhs =>
      cases hm : matchNode term ["sum", "diff"] with
      | error e => rw [hm] at h; cases h
      | ok b =>
        rw [hm] at h
        cases b with
        | false => exact step (by simpa [bind, Except.bind] using h)
        | true =>
          have hl := matchNode_linear hm
          cases op with
          | none => simp [bind, Except.bind] at h
          | some rel =>
            have key : ∀ (head : Node), (∀ θ, litHolds I θ head ↔ ¬ litHolds I θ
                (.literal sign (.theoryAtom term elems (some rel) rhs))) →
                (ruleHolds I (.rule head (front ++ rest)) ↔
                  noBody I (front ++ .literal sign (.theoryAtom term elems (some rel) rhs) :: rest)) := by
              intro head hh
              constructor
              · intro hr θ hb
                have h1 := hr θ (fun b hb' => hb b (by
                  rcases List.mem_append.mp hb' with h | h
                  · exact List.mem_append_left _ h
                  · exact List.mem_append_right _ (List.mem_cons_of_mem _ h)))
                exact (hh θ).mp h1 (hb _ (by simp))
              · intro hn θ hb
                refine (hh θ).mpr (fun hlit => hn θ (fun b hb' => ?_))
                rcases List.mem_append.mp hb' with h | h
                · exact hb b (List.mem_append_left _ h)
                · rcases List.mem_cons.mp h with h | h
                  · rw [h]; exact hlit
                  · exact hb b (List.mem_append_right _ h)
            by_cases hs : sign = .neg
            · subst hs
              simp [bind, Except.bind] at h
              rw [← h]
              refine key _ (fun θ => ?_)
              simp [litHolds]
            · simp [bind, Except.bind, hs] at h
              cases hn : negateRel rel with
              | error e => rw [hn] at h; cases h
              | ok rel' =>
                rw [hn] at h
                simp at h
                rw [← h]
                refine key _ (fun θ => ?_)
                obtain ⟨r, r', h1, h2, h3⟩ := negateRel_sem hn
                cases sign with
                | neg => exact absurd rfl hs
                | none => simp [litHolds, thAtomHolds, h1, h2, hl, h3]
                | dneg => simp [litHolds, thAtomHolds, h1, h2, hl, h3]
    · exact step h

/-- The literal is a linear theory atom. -/
def linearLit : Node → Prop
  | .literal _ (.theoryAtom term _ _ _) => linearName term
  | _ => False

/-- The name of the theory atom in the literal, if any, is not a symbolic term. -/
def plainLit : Node → Prop
  | .literal _ (.theoryAtom (.symTerm _) _ _ _) => False
  | _ => True

theorem shiftBody_skip {ast : Node} : ∀ (mid front rest : List Node),
    (∀ b ∈ mid, ¬ linearLit b ∧ plainLit b) →
    shiftBody ast front (mid ++ rest) = shiftBody ast (front ++ mid) rest
  | [], front, rest, _ => by simp
  | lit :: mid, front, rest, h => by
    have ih := shiftBody_skip (ast := ast) mid (front ++ [lit]) rest (fun b hb => h b (by simp [hb]))
    have h0 := h lit (by simp)
    rw [List.cons_append]
    conv_lhs => unfold shiftBody
    split
    · next sign term elems op rhs =>
      have : matchNode term ["sum", "diff"] = .ok false := by
        have hl : ¬ linearName term := h0.1
        have hp := h0.2
        cases hm : matchNode term ["sum", "diff"] with
        | error e =>
          exfalso
          cases term <;> simp [matchNode, plainLit] at hm hp
          next name args ext =>
            by_cases he : ext = true
            · simp [he] at hm
            · simp only [he] at hm
              cases args <;> simp at hm
        | ok b =>
          cases b with
          | false => rfl
          | true => exact absurd (matchNode_linear hm) hl
      rw [this]
      simp only [bind, Except.bind]
      simp
      simpa using ih
    · simpa using ih

theorem mem_insertName {x y : String} : ∀ {l : List String}, y ∈ insertName x l ↔ y = x ∨ y ∈ l
  | [] => by simp [insertName]
  | z :: zs => by
    unfold insertName
    split
    · simp
    · split
      · next h => subst h; simp
      · simp only [List.mem_cons, mem_insertName (l := zs)]
        tauto

theorem sorted_insertName {x : String} : ∀ {l : List String}, l.Pairwise (· < ·) →
    (insertName x l).Pairwise (· < ·)
  | [], _ => by simp [insertName]
  | z :: zs, h => by
    have h' := List.pairwise_cons.mp h
    unfold insertName
    split
    · next hl =>
      refine List.pairwise_cons.mpr ⟨fun a ha => ?_, h⟩
      rcases List.mem_cons.mp ha with rfl | ha
      · exact hl
      · exact lt_trans hl (h'.1 a ha)
    · split
      · exact h
      · next h1 h2 =>
        refine List.pairwise_cons.mpr ⟨fun a ha => ?_, sorted_insertName h'.2⟩
        rcases mem_insertName.mp ha with rfl | ha
        · exact lt_of_le_of_ne (not_lt.mp h1) (Ne.symm h2)
        · exact h'.1 a ha

mutual
theorem mem_collectVars (x : String) (vs : List String) : ∀ (n : Node),
    x ∈ collectVars vs n ↔ x ∈ vs ∨ x ∈ nodeVars n
  | .var name => by simp only [collectVars, nodeVars, mem_insertName, List.mem_singleton]; tauto
  | .rule head body => by
    simp only [collectVars, nodeVars, mem_collectAll x _ body, mem_collectVars x _ head, List.mem_append]; tauto
  | .literal _ atom => by simp only [collectVars, nodeVars, mem_collectVars x _ atom]
  | .boolConst _ => by simp [collectVars, nodeVars]
  | .theoryAtom term elems _ rhs => by
    simp only [collectVars, nodeVars, mem_collectVars x _ rhs, mem_collectAll x _ elems,
      mem_collectVars x _ term, List.mem_append]; tauto
  | .element terms cond => by
    simp only [collectVars, nodeVars, mem_collectAll x _ cond, mem_collectAll x _ terms, List.mem_append]; tauto
  | .symTerm _ => by simp [collectVars, nodeVars]
  | .function _ args _ => by simp only [collectVars, nodeVars, mem_collectAll x _ args]
  | .other _ children => by simp only [collectVars, nodeVars, mem_collectAll x _ children]
theorem mem_collectAll (x : String) (vs : List String) : ∀ (ns : List Node),
    x ∈ collectAll vs ns ↔ x ∈ vs ∨ x ∈ listVars ns
  | [] => by simp [collectAll, listVars]
  | n :: ns => by
    simp only [collectAll, listVars, mem_collectAll x _ ns, mem_collectVars x _ n, List.mem_append]; tauto
end

mutual
theorem sorted_collectVars : ∀ (vs : List String) (n : Node), vs.Pairwise (· < ·) →
    (collectVars vs n).Pairwise (· < ·)
  | vs, .var name, h => by simpa only [collectVars] using sorted_insertName h
  | vs, .rule head body, h => by
    simpa only [collectVars] using sorted_collectAll _ body (sorted_collectVars _ head h)
  | vs, .literal _ atom, h => by simpa only [collectVars] using sorted_collectVars _ atom h
  | vs, .boolConst _, h => by simpa only [collectVars] using h
  | vs, .theoryAtom term elems _ rhs, h => by
    simpa only [collectVars] using
      sorted_collectVars _ rhs (sorted_collectAll _ elems (sorted_collectVars _ term h))
  | vs, .element terms cond, h => by
    simpa only [collectVars] using sorted_collectAll _ cond (sorted_collectAll _ terms h)
  | vs, .symTerm _, h => by simpa only [collectVars] using h
  | vs, .function _ args _, h => by simpa only [collectVars] using sorted_collectAll _ args h
  | vs, .other _ children, h => by simpa only [collectVars] using sorted_collectAll _ children h
theorem sorted_collectAll : ∀ (vs : List String) (ns : List Node), vs.Pairwise (· < ·) →
    (collectAll vs ns).Pairwise (· < ·)
  | vs, [], h => by simpa only [collectAll] using h
  | vs, n :: ns, h => by
    simpa only [collectAll] using sorted_collectAll _ ns (sorted_collectVars _ n h)
end

theorem nodup_foldl_erase : ∀ (ys l : List String), l.Nodup → (ys.foldl (fun vs x => vs.erase x) l).Nodup
  | [], _, h => h
  | y :: ys, l, h => nodup_foldl_erase ys (l.erase y) (h.erase y)

theorem mem_foldl_erase {x : String} : ∀ (ys l : List String), l.Nodup →
    (x ∈ ys.foldl (fun vs x => vs.erase x) l ↔ x ∈ l ∧ x ∉ ys)
  | [], _, _ => by simp
  | y :: ys, l, h => by
    simp only [List.foldl_cons, mem_foldl_erase ys (l.erase y) (h.erase y), h.mem_erase_iff,
      List.mem_cons, not_or]
    tauto

/-- The variables added to a tuple. -/
theorem rewriteTuple_vars {e e' : Node} {k : Int} (h : rewriteTuple e k = .ok e') :
    ∃ (t : Node) (cond : List Node) (vars : List String), e = .element [t] cond ∧
      e' = .element ([t] ++ (if k ≥ 0 then [.symTerm (.num k)] else []) ++ vars.map .var) cond ∧
      vars.Nodup ∧ ∀ x, x ∈ vars ↔ x ∈ listVars cond ∧ x ∉ nodeVars t ∧ x ≠ "_" := by
  cases e <;> simp [rewriteTuple] at h
  next terms cond =>
    match terms, h with
    | [t], h =>
      have nd : (collectAll [] cond).Nodup :=
        (sorted_collectAll [] cond List.Pairwise.nil).imp (fun h => ne_of_lt h)
      have nd' := nodup_foldl_erase (collectAll [] [t]) _ nd
      refine ⟨t, cond, _, rfl, ?_, nd'.erase "_", fun x => ?_⟩
      · simp at h
        rw [← h]
        split <;> simp
      · rw [nd'.mem_erase_iff, mem_foldl_erase _ _ nd, mem_collectAll, mem_collectAll]
        simp [listVars]
        tauto
    | [], h => simp at h
    | _ :: _ :: _, h => simp at h

mutual
theorem groundTerm_inj {emb : Sym → Term} (he : Function.Injective emb) {θ θ' : String → Sym} :
    ∀ (n : Node), groundTerm emb θ n = groundTerm emb θ' n → ∀ x ∈ nodeVars n, θ x = θ' x
  | .var y, h, x, hx => by
    simp only [nodeVars, List.mem_singleton] at hx
    subst hx; exact he h
  | .symTerm _, _, x, hx => by simp [nodeVars] at hx
  | .boolConst _, _, x, hx => by simp [nodeVars] at hx
  | .function f as _, h, x, hx => by
    simp only [groundTerm, Term.fn.injEq, true_and] at h
    exact groundTerms_inj he as h x hx
  | .other _ cs, h, x, hx => by
    simp only [groundTerm, Term.fn.injEq, true_and] at h
    exact groundTerms_inj he cs h x hx
  | .rule head body, h, x, hx => by
    simp only [groundTerm, Term.tuple.injEq, List.cons.injEq] at h
    simp only [nodeVars, List.mem_append] at hx
    rcases hx with hx | hx
    · exact groundTerm_inj he head h.1 x hx
    · exact groundTerms_inj he body h.2 x hx
  | .literal _ atom, h, x, hx => by
    simp only [groundTerm] at h
    exact groundTerm_inj he atom h x hx
  | .theoryAtom term elems _ rhs, h, x, hx => by
    simp only [groundTerm, Term.tuple.injEq, List.cons.injEq] at h
    simp only [nodeVars, List.mem_append] at hx
    rcases hx with (hx | hx) | hx
    · exact groundTerm_inj he term h.1 x hx
    · exact groundTerms_inj he elems h.2.2 x hx
    · exact groundTerm_inj he rhs h.2.1 x hx
  | .element terms cond, h, x, hx => by
    simp only [groundTerm, Term.tuple.injEq, List.cons.injEq, and_true] at h
    simp only [nodeVars, List.mem_append] at hx
    rcases hx with hx | hx
    · exact groundTerms_inj he terms h.1 x hx
    · exact groundTerms_inj he cond h.2 x hx
theorem groundTerms_inj {emb : Sym → Term} (he : Function.Injective emb) {θ θ' : String → Sym} :
    ∀ (ns : List Node), groundTerms emb θ ns = groundTerms emb θ' ns → ∀ x ∈ listVars ns, θ x = θ' x
  | [], _, x, hx => by simp [listVars] at hx
  | n :: ns, h, x, hx => by
    simp only [groundTerms, List.cons.injEq] at h
    simp only [listVars, List.mem_append] at hx
    rcases hx with hx | hx
    · exact groundTerm_inj he n h.1 x hx
    · exact groundTerms_inj he ns h.2 x hx
end

theorem listVars_mem {ns : List Node} {n : Node} (h : n ∈ ns) {x : String} (hx : x ∈ nodeVars n) :
    x ∈ listVars ns := by
  induction ns with
  | nil => simp at h
  | cons m ms ih =>
    simp only [listVars, List.mem_append]
    rcases List.mem_cons.mp h with rfl | h
    · exact Or.inl hx
    · exact Or.inr (ih h)

theorem rewriteElems_get : ∀ {k : Int} {es es' : List Node}, rewriteElems k es = .ok es' →
    es'.length = es.length ∧ ∀ (i : Nat) (e : Node), es[i]? = some e → ∃ e', es'[i]? = some e' ∧ rewriteTuple e (k + i) = .ok e'
  | k, [], es', h => by
    simp [rewriteElems] at h
    subst h; simp
  | k, e :: es, es', h => by
    simp only [rewriteElems, bind, Except.bind] at h
    cases h1 : rewriteTuple e k with
    | error _ => rw [h1] at h; cases h
    | ok e1 =>
      rw [h1] at h
      cases h2 : rewriteElems (k + 1) es with
      | error _ => rw [h2] at h; cases h
      | ok es1 =>
        rw [h2] at h
        simp at h
        subst h
        obtain ⟨hl, hg⟩ := rewriteElems_get h2
        refine ⟨by simp [hl], fun i a ha => ?_⟩
        cases i with
        | zero =>
          simp at ha; subst ha
          exact ⟨e1, by simp, by simpa using h1⟩
        | succ i =>
          obtain ⟨e', h3, h4⟩ := hg i a (by simpa using ha)
          refine ⟨e', by simpa using h3, ?_⟩
          rw [← h4]; congr 1; push_cast; omega

mutual
/-- The flag is only ever cleared. -/
theorem rewriteNode_flag : ∀ {b : Bool} (n : Node) {n' : Node} {b' : Bool},
    rewriteNode b n = .ok (n', b') → b' = b ∨ b' = false
  | b, .literal s a, n', b', h => by
    simp only [rewriteNode, bind, Except.bind] at h
    split at h
    · cases h
    · simp at h; exact Or.inr h.2
  | b, .theoryAtom term elems op rhs, n', b', h => by
    simp only [rewriteNode, bind, Except.bind] at h
    split at h
    · cases h
    · split at h
      · split at h
        · cases h
        · split at h
          · cases h
          · split at h
            · split at h
              · cases h
              · simp at h; exact Or.inl h.2.symm
            · simp at h; exact Or.inl h.2.symm
      · split at h
        · cases h
        · next r1 h1 =>
          split at h
          · cases h
          · next r2 h2 =>
            split at h
            · cases h
            · next r3 h3 =>
              simp at h
              have e1 := rewriteNode_flag term h1
              have e2 := rewriteNodes_flag elems h2
              have e3 := rewriteNode_flag rhs h3
              rw [← h.2]
              rcases e3 with e3 | e3 <;> rcases e2 with e2 | e2 <;> rcases e1 with e1 | e1 <;> simp_all
  | b, .rule head body, n', b', h => by
    simp only [rewriteNode, bind, Except.bind] at h
    split at h
    · cases h
    · next r1 h1 =>
      split at h
      · cases h
      · next r2 h2 =>
        simp at h
        have e1 := rewriteNode_flag head h1
        have e2 := rewriteNodes_flag body h2
        rw [← h.2]
        rcases e2 with e2 | e2 <;> rcases e1 with e1 | e1 <;> simp_all
  | b, .element terms cond, n', b', h => by
    simp only [rewriteNode, bind, Except.bind] at h
    split at h
    · cases h
    · next r1 h1 =>
      split at h
      · cases h
      · next r2 h2 =>
        simp at h
        have e1 := rewriteNodes_flag terms h1
        have e2 := rewriteNodes_flag cond h2
        rw [← h.2]
        rcases e2 with e2 | e2 <;> rcases e1 with e1 | e1 <;> simp_all
  | b, .function name args ext, n', b', h => by
    simp only [rewriteNode, bind, Except.bind] at h
    split at h
    · cases h
    · next r1 h1 =>
      simp at h
      rw [← h.2]; exact rewriteNodes_flag args h1
  | b, .other kind cs, n', b', h => by
    simp only [rewriteNode, bind, Except.bind] at h
    split at h
    · cases h
    · next r1 h1 =>
      simp at h
      rw [← h.2]; exact rewriteNodes_flag cs h1
  | b, .boolConst v, n', b', h => by simp [rewriteNode] at h; exact Or.inl h.2.symm
  | b, .symTerm v, n', b', h => by simp [rewriteNode] at h; exact Or.inl h.2.symm
  | b, .var v, n', b', h => by simp [rewriteNode] at h; exact Or.inl h.2.symm
theorem rewriteNodes_flag : ∀ {b : Bool} (ns : List Node) {ns' : List Node} {b' : Bool},
    rewriteNodes b ns = .ok (ns', b') → b' = b ∨ b' = false
  | b, [], ns', b', h => by simp [rewriteNodes] at h; exact Or.inl h.2.symm
  | b, n :: ns, ns', b', h => by
    simp only [rewriteNodes, bind, Except.bind] at h
    split at h
    · cases h
    · next r1 h1 =>
      split at h
      · cases h
      · next r2 h2 =>
        simp at h
        have e1 := rewriteNode_flag n h1
        have e2 := rewriteNodes_flag ns h2
        rw [← h.2]
        rcases e2 with e2 | e2 <;> rcases e1 with e1 | e1 <;> simp_all
end

/-- Each node of a sequence is rewritten with the flag being false. -/
theorem rewriteNodes_get : ∀ {ns ns' : List Node} {b' : Bool}, rewriteNodes false ns = .ok (ns', b') →
    ns'.length = ns.length ∧
    ∀ (i : Nat) (n : Node), ns[i]? = some n → ∃ n', ns'[i]? = some n' ∧ rewriteNode false n = .ok (n', false)
  | [], ns', b', h => by
    simp [rewriteNodes] at h
    rw [h.1]; simp
  | n :: ns, ns', b', h => by
    simp only [rewriteNodes, bind, Except.bind] at h
    split at h
    · cases h
    · next r1 h1 =>
      obtain ⟨n1, b1⟩ := r1
      have hb : b1 = false := by rcases rewriteNode_flag n h1 with e | e <;> exact e
      subst hb
      split at h
      · cases h
      · next r2 h2 =>
        simp at h
        obtain ⟨hl, hg⟩ := rewriteNodes_get (ns' := r2.1) (b' := r2.2) h2
        rw [← h.1]
        refine ⟨by simp [hl], fun i a ha => ?_⟩
        cases i with
        | zero => simp at ha; subst ha; exact ⟨n1, by simp, h1⟩
        | succ i => simpa using hg i a (by simpa using ha)

theorem rewriteNode_literal {b b' : Bool} {s : Sign} {a n' : Node}
    (h : rewriteNode b (.literal s a) = .ok (n', b')) :
    ∃ a' b2, rewriteNode true a = .ok (a', b2) ∧ n' = .literal s a' := by
  unfold rewriteNode at h
  cases h1 : rewriteNode true a with
  | error e => rw [h1] at h; simp [bind, Except.bind] at h
  | ok r =>
    rw [h1] at h
    simp [bind, Except.bind] at h
    exact ⟨r.1, r.2, rfl, h.1.symm⟩

/-- Rewriting an atom with the given name. -/
theorem rewriteNode_atom {b b' : Bool} {name : String} {elems : List Node} {op : Option String}
    {rhs n' : Node} (hn : name ∈ rewrittenNames)
    (h : rewriteNode b (.theoryAtom (.function name [] false) elems op rhs) = .ok (n', b')) :
    ∃ elems', rewriteElems (if elems.length > 1 then 0 else -1) elems = .ok elems' ∧ b' = b ∧
      n' = .theoryAtom (.function (if name ∈ ["sum", "nsum", "diff"] then
        "__" ++ name ++ (if b then "_b" else "_h") else name) [] false) elems' op rhs := by
  have hm : matchNode (.function name [] false) rewrittenNames = .ok true := by
    simp only [matchNode]
    simpa using hn
  simp only [rewriteNode, bind, Except.bind, hm] at h
  simp only [if_true] at h
  split at h
  · cases h
  · next es' h1 =>
    refine ⟨es', h1, ?_⟩
    by_cases hs : name ∈ ["sum", "nsum", "diff"]
    · have hm2 : matchNode (.function name [] false) ["sum", "nsum", "diff"] = .ok true := by
        simp only [matchNode]
        simpa using hs
      rw [hm2] at h
      simp [tagTerm] at h
      refine ⟨h.2.symm, ?_⟩
      rw [if_pos hs, ← h.1]
    · have hm2 : matchNode (.function name [] false) ["sum", "nsum", "diff"] = .ok false := by
        simp only [matchNode]
        simpa using hs
      rw [hm2] at h
      simp at h
      refine ⟨h.2.symm, ?_⟩
      rw [if_neg hs, ← h.1]

end Clingcon
