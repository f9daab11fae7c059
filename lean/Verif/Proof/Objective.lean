import Verif.Proof.Program

/-! Helper lemmas about objective functions and show statements of programs. -/
namespace Clingcon
open Spec
set_option linter.unusedSimpArgs false

/-- Calls that post constraints. -/
def plain : Event → Bool
  | .clause _ | .constraint _ _ _ _ | .nonlinear _ _ _ _ _ _ _ _ | .distinct _ _ | .disjoint _ _ | .dom _ _ _ => true
  | _ => false

/-- No variables are added. -/
structure Keeps (s s' : BState) : Prop where
  sym : s'.symMap = s.symMap
  num : s'.numVars = s.numVars
  next : s.nextLit ≤ s'.nextLit

theorem Keeps.refl (s : BState) : Keeps s s := ⟨rfl, rfl, le_refl _⟩
theorem Keeps.trans {a b c : BState} (h : Keeps a b) (k : Keeps b c) : Keeps a c :=
  ⟨k.sym.trans h.sym, k.num.trans h.num, le_trans h.next k.next⟩

/-- Only constraints are posted. -/
def Quiet (c : BM Bool) : Prop :=
  ∀ s b s', c s = .ok (b, s') → Keeps s s' ∧ ∃ new, s'.log = s.log ++ new ∧ ∀ e ∈ new, plain e = true

theorem quiet_pure {b : Bool} : Quiet (pure b) := by
  intro s b s' h
  have h := pureS_ok h
  simp only [Prod.mk.injEq] at h
  obtain ⟨-, rfl⟩ := h
  exact ⟨Keeps.refl _, [], by simp, by simp⟩

theorem quiet_post {env : BEnv} {e : Event} (h : plain e = true) : Quiet (post env e) := by
  intro s b s' h'
  simp only [post, Except.ok.injEq, Prod.mk.injEq] at h'
  obtain ⟨-, rfl⟩ := h'
  exact ⟨⟨rfl, rfl, le_refl _⟩, [e], rfl, by simpa using h⟩

theorem quiet_bind {α : Type} {c1 : BM α} {c2 : α → BM Bool}
    (h1 : ∀ s a s', c1 s = .ok (a, s') → Keeps s s' ∧ s'.log = s.log) (h2 : ∀ a, Quiet (c2 a)) : Quiet (c1 >>= c2) := by
  intro s b s' h
  obtain ⟨a, s1, k, h⟩ := bindS_ok h
  obtain ⟨k2, new, e1, e2⟩ := h2 a s1 b s' h
  exact ⟨(h1 _ _ _ k).1.trans k2, new, by rw [e1, (h1 _ _ _ k).2], e2⟩

theorem quiet_andThen {c1 c2 : BM Bool} (h1 : Quiet c1) (h2 : Quiet c2) : Quiet (andThen c1 c2) := by
  intro s b s' h
  unfold andThen at h
  obtain ⟨a, s1, k, h⟩ := bindS_ok h
  obtain ⟨g1, n1, e1, e2⟩ := h1 s a s1 k
  cases a with
  | false =>
    simp only [Bool.false_eq_true, if_false] at h
    obtain ⟨g2, n2, f1, f2⟩ := quiet_pure _ _ _ h
    exact ⟨g1.trans g2, n1 ++ n2, by rw [f1, e1, List.append_assoc], fun e he => (List.mem_append.1 he).elim (e2 e) (f2 e)⟩
  | true =>
    simp only [if_true] at h
    obtain ⟨g2, n2, f1, f2⟩ := h2 s1 b s' h
    exact ⟨g1.trans g2, n1 ++ n2, by rw [f1, e1, List.append_assoc], fun e he => (List.mem_append.1 he).elim (e2 e) (f2 e)⟩

theorem silent_lift {α : Type} {x : Res α} : ∀ s a s', (liftM x : BM α) s = .ok (a, s') → Keeps s s' ∧ s'.log = s.log := by
  intro s a s' h
  obtain ⟨-, rfl⟩ := liftS_ok h
  exact ⟨Keeps.refl _, rfl⟩

theorem silent_isTrue {env : BEnv} {l : Int} : ∀ s a s', isTrue env l s = .ok (a, s') → Keeps s s' ∧ s'.log = s.log := by
  intro s a s' h
  simp only [isTrue, Except.ok.injEq, Prod.mk.injEq] at h
  rw [h.2]; exact ⟨Keeps.refl _, rfl⟩

theorem silent_addLiteral : ∀ s a s', addLiteral s = .ok (a, s') → Keeps s s' ∧ s'.log = s.log := by
  intro s a s' h
  simp only [addLiteral, Except.ok.injEq, Prod.mk.injEq] at h
  rw [← h.2]; exact ⟨⟨rfl, rfl, by simp⟩, rfl⟩

section
variable {V : Type} {env : BEnv} {add : AddConstraint V} (hadd : ∀ l e r s, Quiet (add l e r s))
include hadd

theorem quiet_le1 {lit : Int} {elems : List (Int × V)} {rhs : Int} : Quiet (normalizeLe1 env add lit elems rhs) := by
  refine quiet_bind silent_isTrue fun a => ?_
  cases a
  · exact hadd _ _ _ _
  · exact quiet_pure

theorem quiet_le {lit : Int} {elems : List (Int × V)} {rhs : Int} {strict : Bool} : Quiet (normalizeLe env add lit elems rhs strict) := by
  unfold normalizeLe
  split
  · split
    · exact hadd _ _ _ _
    · exact quiet_andThen (quiet_le1 hadd) (quiet_bind silent_lift fun _ => quiet_le1 hadd)
  · exact quiet_le1 hadd

theorem quiet_both {a b : Int} {elems : List (Int × V)} {rhs : Int} {strict : Bool} : Quiet (normalizeBoth env add a b elems rhs strict) :=
  quiet_andThen (quiet_le hadd) (quiet_bind silent_lift fun _ => quiet_le hadd)

theorem quiet_eqLits {lit a b : Int} {elems : List (Int × V)} {rhs : Int} : Quiet (normalizeEqLits env add lit a b elems rhs) :=
  quiet_andThen (quiet_post rfl) (quiet_andThen (quiet_post rfl) (quiet_andThen (quiet_post rfl) (quiet_both hadd)))

theorem quiet_eq {lit : Int} {elems : List (Int × V)} {rhs : Int} {strict : Bool} : Quiet (normalizeEq env add lit elems rhs strict) := by
  unfold normalizeEq
  split
  · refine quiet_bind silent_isTrue fun a => ?_
    split
    · exact quiet_eqLits hadd
    · exact quiet_bind silent_addLiteral fun _ => quiet_bind silent_addLiteral fun _ => quiet_eqLits hadd
  · exact quiet_both hadd

theorem quiet_ne {lit : Int} {elems : List (Int × V)} {rhs : Int} {strict : Bool} : Quiet (normalizeNe env add lit elems rhs strict) := by
  unfold normalizeNe
  split
  · exact quiet_eq hadd
  · refine quiet_bind silent_addLiteral fun _ => quiet_bind silent_addLiteral fun _ => ?_
    exact quiet_andThen (quiet_post rfl) (quiet_andThen (quiet_post rfl) (quiet_andThen (quiet_post rfl) (quiet_andThen (quiet_post rfl)
      (quiet_andThen (quiet_bind silent_lift fun _ => quiet_le hadd) (quiet_bind silent_lift fun _ => quiet_le hadd)))))

theorem quiet_normalize {lit : Int} {elems : List (Int × V)} {op : Rel} {rhs : Int} {strict : Bool} :
    Quiet (normalize env add lit elems op rhs strict) := by
  unfold normalize
  refine quiet_bind silent_lift fun r => ?_
  split
  · exact quiet_eq hadd
  · exact quiet_ne hadd
  · exact quiet_le hadd

end

section
variable {pow : Int → Int → Res Int} (hpow : ∀ x y z, pow x y = .ok z → -2 ^ 31 ≤ z ∧ z ≤ 2 ^ 31 - 1)
variable {env : BEnv} {s s' : BState} {b : Bool}

/-- Outcome of an atom that is not a directive. -/
def PlainOK (s s' : BState) : Prop :=
  Grows s s' ∧ ∃ new, s'.log = s.log ++ new ∧ ∀ e ∈ new, plain e = true

theorem plainOK {s1 : BState} (hw : s1.WF) (he : Ext s s1) (h : Keeps s1 s' ∧ ∃ new, s'.log = s1.log ++ new ∧ ∀ e ∈ new, plain e = true) :
    PlainOK s s' := by
  obtain ⟨k, new, e1, e2⟩ := h
  refine ⟨⟨⟨by rw [k.sym]; exact hw.keys, by rw [k.sym]; exact hw.vals, by rw [k.sym, k.num]; exact hw.bound⟩, ?_, ?_, ?_⟩, new, ?_, e2⟩
  · rw [k.sym]; exact he.sym
  · rw [k.num]; exact he.num
  · rw [← he.next]; exact k.next
  · rw [e1, he.log]

theorem quiet_addLinear : ∀ l e r s, Quiet (addLinear env l e r s) := fun _ _ _ _ => quiet_post rfl
theorem quiet_addNonlin : ∀ l e r s, Quiet (addNonlin env l e r s) := fun _ _ _ _ =>
  quiet_bind silent_lift fun _ => quiet_post rfl

include hpow

theorem sum_plain {lit : Int} {ts : List Term} {guard : Option (Rel × Term)} {strict : Bool} (hw : s.WF)
    (h : parseSumAtom pow env { lit := lit, elems := ts, guard := guard } strict s = .ok (b, s')) : PlainOK s s' := by
  cases guard with
  | none => cases h
  | some g =>
    unfold parseSumAtom at h
    simp only at h
    obtain ⟨el, s1, k1, h⟩ := bindS_ok h
    obtain ⟨⟨out, rhs⟩, k2, h⟩ := liftBind_ok h
    obtain ⟨w1, w2, -⟩ := parseSum_spec names_spec powers_spec
      (fun x y z h => by rw [val_fits]; have := hpow x y z h; omega) hw k1
    exact plainOK w1 w2 (quiet_normalize quiet_addLinear _ _ _ h)

theorem diff_plain {lit : Int} {ts : List Term} {guard : Option (Rel × Term)} {strict : Bool} (hw : s.WF)
    (h : parseDiffAtom pow env { lit := lit, elems := ts, guard := guard } strict s = .ok (b, s')) : PlainOK s s' := by
  cases guard with
  | none => cases h
  | some g =>
    unfold parseDiffAtom at h
    simp only at h
    obtain ⟨el, s1, k1, h⟩ := bindS_ok h
    obtain ⟨⟨out, rhs⟩, k2, h⟩ := liftBind_ok h
    obtain ⟨w1, w2, -⟩ := parseDiff_spec names_spec powers_spec
      (fun x y z h => by rw [val_fits]; have := hpow x y z h; omega) hw k1
    exact plainOK w1 w2 (quiet_normalize quiet_addLinear _ _ _ h)

theorem nsum_plain {lit : Int} {ts : List Term} {guard : Option (Rel × Term)} {strict : Bool} (hw : s.WF)
    (h : parseNsumAtom pow env { lit := lit, elems := ts, guard := guard } strict s = .ok (b, s')) : PlainOK s s' := by
  cases guard with
  | none => cases h
  | some g =>
    unfold parseNsumAtom at h
    simp only at h
    obtain ⟨el, s1, k1, h⟩ := bindS_ok h
    obtain ⟨⟨out, rhs⟩, k2, h⟩ := liftBind_ok h
    obtain ⟨w1, w2, -⟩ := parseSum_spec names_spec powers_spec
      (fun x y z h => by rw [val_fits]; have := hpow x y z h; omega) hw k1
    exact plainOK w1 w2 (quiet_normalize quiet_addNonlin _ _ _ h)

/-- What an atom does. -/
theorem parseAtom_cases {a : TheoryAtom} (hw : s.WF) (h : parseAtom pow env a s = .ok (b, s')) :
    (theoryName a.term ≠ some "minimize" ∧ theoryName a.term ≠ some "maximize" ∧ theoryName a.term ≠ some "show" ∧ PlainOK s s') ∨
    (theoryName a.term = some "show" ∧ b = true ∧ parseShow pow (a.elems.filterMap (fun e => e.tuple.head?)) s = .ok ((), s')) ∨
    (theoryName a.term = some "minimize" ∧ b = true ∧ parseObjective pow (a.elems.filterMap (fun e => e.tuple.head?)) 1 s = .ok ((), s')) ∨
    (theoryName a.term = some "maximize" ∧ b = true ∧ parseObjective pow (a.elems.filterMap (fun e => e.tuple.head?)) (-1) s = .ok ((), s')) := by
  obtain ⟨term, lit, elems, guard⟩ := a
  unfold parseAtom at h
  simp only [Bool.or_eq_true, matchTerm_zero] at h
  by_cases c1 : theoryName term = some "__sum_b" ∨ theoryName term = some "__sum_h"
  · rw [if_pos c1] at h
    obtain ⟨ts, k1, h⟩ := liftBind_ok h
    left
    rcases c1 with c | c <;> exact ⟨by simp [c], by simp [c], by simp [c], sum_plain hpow hw h⟩
  rw [if_neg c1] at h
  by_cases c2 : theoryName term = some "__diff_b" ∨ theoryName term = some "__diff_h"
  · rw [if_pos c2] at h
    obtain ⟨ts, k1, h⟩ := liftBind_ok h
    left
    rcases c2 with c | c <;> exact ⟨by simp [c], by simp [c], by simp [c], diff_plain hpow hw h⟩
  rw [if_neg c2] at h
  by_cases c3 : theoryName term = some "__nsum_b" ∨ theoryName term = some "__nsum_h"
  · rw [if_pos c3] at h
    obtain ⟨ts, k1, h⟩ := liftBind_ok h
    left
    rcases c3 with c | c <;> exact ⟨by simp [c], by simp [c], by simp [c], nsum_plain hpow hw h⟩
  rw [if_neg c3] at h
  by_cases c4 : theoryName term = some "distinct"
  · rw [if_pos c4] at h
    obtain ⟨ts, k1, h⟩ := liftBind_ok h
    left
    refine ⟨by simp [c4], by simp [c4], by simp [c4], ?_⟩
    unfold parseDistinct at h
    obtain ⟨es, s1, k1, h⟩ := bindS_ok h
    obtain ⟨w1, w2, -⟩ := parseDistinctElems_spec hpow ts s s1 es hw k1
    exact plainOK w1 w2 (quiet_post rfl _ _ _ h)
  rw [if_neg c4] at h
  by_cases c5 : theoryName term = some "disjoint"
  · rw [if_pos c5] at h
    obtain ⟨ts, k1, h⟩ := liftBind_ok h
    left
    refine ⟨by simp [c5], by simp [c5], by simp [c5], ?_⟩
    unfold parseDisjoint at h
    obtain ⟨es, s1, k1, h⟩ := bindS_ok h
    obtain ⟨w1, w2, -⟩ := parseDisjointElems_spec ts s s1 es hw k1
    exact plainOK w1 w2 (quiet_post rfl _ _ _ h)
  rw [if_neg c5] at h
  by_cases c6 : theoryName term = some "show"
  · rw [if_pos c6] at h
    obtain ⟨ts, k1, h⟩ := liftBind_ok h
    obtain ⟨_, s1, k2, h⟩ := bindS_ok h
    have h := pureS_ok h
    simp only [Prod.mk.injEq] at h
    obtain ⟨rfl, rfl⟩ := h
    rw [onlyTerms_spec _ _ k1] at k2
    exact Or.inr (Or.inl ⟨c6, rfl, k2⟩)
  rw [if_neg c6] at h
  by_cases c7 : theoryName term = some "dom"
  · rw [if_pos c7] at h
    obtain ⟨ts, k1, h⟩ := liftBind_ok h
    left
    refine ⟨by simp [c7], by simp [c7], by simp [c7], ?_⟩
    unfold parseDom at h
    obtain ⟨d, -, h⟩ := liftBind_ok h
    cases guard with
    | none => cases h
    | some g =>
      simp only at h
      obtain ⟨x, k2, h⟩ := liftBind_ok h
      obtain ⟨v, s1, k3, h⟩ := bindS_ok h
      obtain ⟨w1, w2, w3⟩ := addVariable_spec hw k3
      exact plainOK w1 w2 (quiet_post rfl _ _ _ h)
  rw [if_neg c7] at h
  by_cases c8 : theoryName term = some "minimize"
  · rw [if_pos c8] at h
    obtain ⟨ts, k1, h⟩ := liftBind_ok h
    obtain ⟨_, s1, k2, h⟩ := bindS_ok h
    have h := pureS_ok h
    simp only [Prod.mk.injEq] at h
    obtain ⟨rfl, rfl⟩ := h
    rw [firstTerms_spec _ _ k1] at k2
    exact Or.inr (Or.inr (Or.inl ⟨c8, rfl, k2⟩))
  rw [if_neg c8] at h
  by_cases c9 : theoryName term = some "maximize"
  · rw [if_pos c9] at h
    obtain ⟨ts, k1, h⟩ := liftBind_ok h
    obtain ⟨_, s1, k2, h⟩ := bindS_ok h
    have h := pureS_ok h
    simp only [Prod.mk.injEq] at h
    obtain ⟨rfl, rfl⟩ := h
    rw [firstTerms_spec _ _ k1] at k2
    exact Or.inr (Or.inr (Or.inr ⟨c9, rfl, k2⟩))
  rw [if_neg c9] at h
  left
  exact ⟨c8, c9, c6, plainOK hw (Ext.refl _) (quiet_pure _ _ _ h)⟩

end

theorem eventCost_append (τ : Nat → Int) (l m : List Event) : eventCost τ (l ++ m) = eventCost τ l + eventCost τ m := by
  induction l with
  | nil => simp [eventCost]
  | cons e l ih =>
    cases e <;> simp only [List.cons_append, eventCost, ih] <;> omega

theorem eventCost_zero (τ : Nat → Int) (l : List Event) (h : ∀ e ∈ l, ∀ co v, e ≠ .minimize co v) : eventCost τ l = 0 := by
  induction l with
  | nil => rfl
  | cons e l ih =>
    have := ih fun e he => h e (List.mem_cons_of_mem _ he)
    have h1 := h e List.mem_cons_self
    cases e <;> simp_all [eventCost]

theorem eventCost_minimize (τ : Nat → Int) (ms : CoVarVec) : eventCost τ (ms.map (fun m => .minimize m.1 m.2)) = linVal τ ms := by
  induction ms with
  | nil => simp [eventCost, linVal]
  | cons m ms ih =>
    simp only [List.map_cons, eventCost, ih, linVal, wsum_cons]

theorem showElem_grows {pow : Int → Int → Res Int} {s s' : BState} (g : Grows s s') {t : Term} {e : Event} (h : showElem pow s t e) : showElem pow s' t e := by
  rcases h with h | ⟨h1, x, v, h2, h3, h4, h5⟩
  · exact Or.inl h
  · obtain ⟨m, hm⟩ := g.sym
    exact Or.inr ⟨h1, x, v, h2, h3, by rw [hm]; exact List.mem_append_left _ h4, h5⟩

theorem plain_min {l : List Event} (h : ∀ e ∈ l, plain e = true) : ∀ e ∈ l, ∀ co v, e ≠ .minimize co v := by
  rintro e he co v rfl
  simpa [plain] using h _ he

theorem plain_show {l : List Event} (h : ∀ e ∈ l, plain e = true) : l.filter isShow = [] := by
  rw [List.filter_eq_nil_iff]
  intro e he
  have := h e he
  cases e <;> simp_all [plain, isShow]

theorem showElem_isShow {pow : Int → Int → Res Int} {s : BState} {t : Term} {e : Event} (h : showElem pow s t e) : isShow e = true := by
  rcases h with ⟨_, _, _, _, _, _, _, _, rfl⟩ | ⟨_, _, _, _, _, _, rfl⟩ <;> rfl

theorem showElems_isShow {pow : Int → Int → Res Int} {s : BState} {ts : List Term} {es : List Event} (h : List.Forall₂ (showElem pow s) ts es) :
    es.filter isShow = es ∧ ∀ e ∈ es, ∀ co v, e ≠ .minimize co v := by
  have h1 : ∀ e ∈ es, isShow e = true := fun e he => by
    obtain ⟨t, -, ht⟩ := forall2_mem_right h he
    exact showElem_isShow ht
  refine ⟨List.filter_eq_self.2 h1, ?_⟩
  rintro e he co v rfl
  simpa [isShow] using h1 _ he

theorem program_frame {pow : Int → Int → Res Int} (hpow : ∀ x y z, pow x y = .ok z → -2 ^ 31 ≤ z ∧ z ≤ 2 ^ 31 - 1) {env : BEnv} :
    ∀ (as : List TheoryAtom) (s s' : BState), s.WF → parseProgram pow env as s = .ok (true, s') →
      Grows s s' ∧ ∃ new, s'.log = s.log ++ new ∧ showEvents pow s' as (new.filter isShow) ∧
        (s'.numVars ≤ 4294967295 → ∀ σ τ, Agree σ τ s' → programCost pow σ as = some (eventCost τ new)) := by
  intro as
  induction as with
  | nil =>
    intro s s' hw h
    have h := pureS_ok h
    simp only [Prod.mk.injEq, true_and] at h
    subst h
    exact ⟨⟨hw, ⟨[], by simp⟩, le_refl _, le_refl _⟩, [], by simp, by simp [showEvents], by simp [programCost, eventCost]⟩
  | cons a as ih =>
    intro s s' hw h
    unfold parseProgram andThen at h
    obtain ⟨b1, s1, k1, h⟩ := bindS_ok h
    have hb : b1 = true := by
      cases b1
      · simp only [Bool.false_eq_true, if_false] at h
        have h := pureS_ok h
        simp at h
      · rfl
    subst hb
    simp only [if_true] at h
    rcases parseAtom_cases hpow hw k1 with ⟨c1, c2, c3, g1, n1, l1, p1⟩ | ⟨c, -, k⟩ | ⟨c, -, k⟩ | ⟨c, -, k⟩
    · obtain ⟨g2, n2, l2, p2, p3⟩ := ih _ _ g1.wf h
      refine ⟨g1.trans g2, n1 ++ n2, by rw [l2, l1, List.append_assoc], ?_, ?_⟩
      · simp only [showEvents, if_neg c3, List.filter_append, plain_show p1, List.nil_append]; exact p2
      · intro hn σ τ ha
        rw [eventCost_append, eventCost_zero τ n1 (plain_min p1)]
        simp [programCost, c1, c2, p3 hn σ τ ha]
    · obtain ⟨g1, -, es, l1, p1⟩ := parseShow_spec hw k
      obtain ⟨g2, n2, l2, p2, p3⟩ := ih _ _ g1.wf h
      obtain ⟨f1, f2⟩ := showElems_isShow p1
      refine ⟨g1.trans g2, .show :: es ++ n2, by rw [l2, l1, List.append_assoc], ?_, ?_⟩
      · simp only [showEvents, if_pos c]
        refine ⟨es, n2.filter isShow, ?_, p1.imp fun _ _ h => showElem_grows g2 h, p2⟩
        rw [List.filter_append, List.filter_cons_of_pos rfl, f1]; rfl
      · intro hn σ τ ha
        rw [eventCost_append, eventCost_zero τ (.show :: es)]
        · simp [programCost, c, p3 hn σ τ ha]
        · intro e he
          rcases List.mem_cons.1 he with rfl | he
          · intro _ _ h; cases h
          · exact f2 e he
    · obtain ⟨g1, ms, l1, -, q1⟩ := parseObjective_spec hpow hw k
      obtain ⟨g2, n2, l2, p2, p3⟩ := ih _ _ g1.wf h
      refine ⟨g1.trans g2, ms.map (fun m => Event.minimize m.1 m.2) ++ n2, by rw [l2, l1, List.append_assoc], ?_, ?_⟩
      · have : (ms.map (fun m => Event.minimize m.1 m.2)).filter isShow = [] := by
          rw [List.filter_eq_nil_iff]; intro e he
          obtain ⟨m, -, rfl⟩ := List.mem_map.1 he
          simp [isShow]
        simp only [showEvents, c, Option.some.injEq, String.reduceEq, if_false, List.filter_append, this, List.nil_append]
        exact p2
      · intro hn σ τ ha
        obtain ⟨v, q2, q3⟩ := q1 (le_trans g2.num hn) σ τ (ha.grows g2)
        rw [eventCost_append, eventCost_minimize, q3]
        simp [programCost, c, p3 hn σ τ ha, q2]
    · obtain ⟨g1, ms, l1, -, q1⟩ := parseObjective_spec hpow hw k
      obtain ⟨g2, n2, l2, p2, p3⟩ := ih _ _ g1.wf h
      refine ⟨g1.trans g2, ms.map (fun m => Event.minimize m.1 m.2) ++ n2, by rw [l2, l1, List.append_assoc], ?_, ?_⟩
      · have : (ms.map (fun m => Event.minimize m.1 m.2)).filter isShow = [] := by
          rw [List.filter_eq_nil_iff]; intro e he
          obtain ⟨m, -, rfl⟩ := List.mem_map.1 he
          simp [isShow]
        simp only [showEvents, c, Option.some.injEq, String.reduceEq, if_false, List.filter_append, this, List.nil_append]
        exact p2
      · intro hn σ τ ha
        obtain ⟨v, q2, q3⟩ := q1 (le_trans g2.num hn) σ τ (ha.grows g2)
        rw [eventCost_append, eventCost_minimize, q3]
        simp [programCost, c, p3 hn σ τ ha, q2]

end Clingcon
