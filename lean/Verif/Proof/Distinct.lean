import Verif.Proof.Keep

/-! Propagation of distinct constraints loses no solutions. -/
namespace Clingcon
open Spec VarState

variable {β : Nat → Bool} {σ : Nat → Int} {F : List VarState × Book} {m : Bool} {α : Type}

/-- A literal that is checked to be false and then added to the reason. -/
theorem tr_falseReason {cc : CC} {reason : List Int} {l : Int} {f : List Int → SM α} {R : α → World → Prop} (he : EnvSound cc β) (hx : ∀ r, Ext' m (f r))
    (hf : ∀ r, ((∀ x ∈ r, ¬ litTrue β x) → (∀ x ∈ reason, ¬ litTrue β x) ∧ ¬ litTrue β l) → Tr β σ m (InvF β σ F) (f r) R) :
    Tr β σ m (InvF β σ F) (qFalse cc l >>= fun b => assertS b >>= fun _ => pushReason cc reason l >>= f) R := by
  refine Tr.bind (Q := fun b W => InvF β σ F W ∧ b = cc.isFalse W.log l) ?_ (fun b => ?_)
  · intro W a W' h
    obtain ⟨rfl, rfl⟩ := qFalse_iff.mp h
    exact ⟨Grow.refl _ _, fun h _ => ⟨h, rfl⟩⟩
  · refine Tr.bind (Q := fun _ W => InvF β σ F W ∧ cc.isFalse W.log l = true) (Tr.assertS (fun hb _ h => ⟨h.1, h.2 ▸ hb⟩)) (fun _ => ?_)
    exact Tr.bind (tr_pushReason he) (fun r => Tr.assume (hx r) (hf r))

theorem litTrue_neg' {l : Int} (h : l ≠ 0) : ¬ litTrue β (-l) → litTrue β l := fun h1 => by
  by_contra h2
  exact h1 ((Clingcon.litTrue_neg h).mpr h2)

theorem tr_distinctReason {cc : CC} (he : EnvSound cc β) : ∀ {es : List (Int × Nat)} {reason : List Int},
    Tr β σ m (InvF β σ F) (distinctReason cc es reason)
      (fun r W => InvF β σ F W ∧ ((∀ x ∈ r, ¬ litTrue β x) → (∀ x ∈ reason, ¬ litTrue β x) ∧
        ∀ e ∈ es, σ e.2 = loF F e.2 ∧ σ e.2 = upF F e.2))
  | [], reason => Tr.pure (fun _ h => ⟨h, fun h => ⟨h, fun e he => by cases he⟩⟩)
  | (co, var) :: es, reason => by
    unfold distinctReason
    refine Tr.getVarF (fun _ => by ext_auto) (fun vs _ _ _ _ hlo hup => ?_)
    refine Tr.bindP (p := fun _ => vs.isAssigned = true) (Tr.assertS (fun h1 _ h => ⟨h, h1⟩)) (fun _ => by ext_auto) (fun _ ha => ?_)
    have ha : vs.lower = vs.upper := by simpa [VarState.isAssigned] using ha
    refine Tr.bindP (tr_getLiteral he.tt) (fun _ => by ext_auto) (fun l hl => ?_)
    refine tr_falseReason he (fun _ => by ext_auto) (fun r1 h1 => ?_)
    refine Tr.bindP (tr_getLiteral he.tt) (fun _ => by ext_auto) (fun l' hl' => ?_)
    refine tr_falseReason he (fun _ => by ext_auto) (fun r2 h2 => ?_)
    refine (tr_distinctReason he).post (fun r W h => ⟨h.1, fun hall => ?_⟩)
    obtain ⟨h3, h4⟩ := h.2 hall
    obtain ⟨h5, h6⟩ := h2 h3
    obtain ⟨h7, h8⟩ := h1 h5
    refine ⟨h7, fun e hm => ?_⟩
    rcases List.mem_cons.mp hm with rfl | hm
    · have a1 := hl.2.mp (litTrue_neg' hl.1 h8)
      have a2 := mt hl'.2.mpr h6
      dsimp only
      constructor <;> omega
    · exact h4 e hm

/-- The variable has the bound that makes the element least or greatest. -/
def AtBound (σ : Nat → Int) (F : List VarState × Book) (up : Bool) (v : Nat) : Prop := if up then σ v = upF F v else σ v = loF F v

theorem tr_distinctStep {cc : CC} {up isFact : Bool} {var : Nat} {reason : List Int} (he : EnvSound cc β)
    (hk : isFact = true → (∀ x ∈ reason, ¬ litTrue β x) → ¬ AtBound σ F up var) :
    Tr β σ m (InvF β σ F) (distinctStep cc up isFact var reason)
      (fun p W => InvF β σ F W ∧ ((∀ x ∈ p.1, ¬ litTrue β x) → ¬ litTrue β p.2 → (∀ x ∈ reason, ¬ litTrue β x) ∧ AtBound σ F up var)) := by
  unfold distinctStep
  refine Tr.getVarF (fun _ => by ext_auto) (fun vs _ _ _ _ hlo hup => ?_)
  refine Tr.ite (fun hu => ?_) (fun hu => ?_)
  · subst hu
    refine Tr.bindP (tr_getLiteral he.tt) (fun _ => by ext_auto) (fun l hl => ?_)
    refine tr_falseReason he (fun _ => by ext_auto) (fun r1 h1 => ?_)
    refine Tr.bindP (tr_update he.tt ?_) (fun _ => by ext_auto) (fun l' hl' => ?_)
    · intro _ t ht _
      split_ifs at ht with hc
      injection ht with ht
      subst ht
      simp only [Bool.and_eq_true, List.isEmpty_iff] at hc
      obtain ⟨a1, a2⟩ := h1 (by rw [hc.2]; simp)
      have a3 := hl.2.mp (litTrue_neg' hl.1 a2)
      have a4 := hk hc.1 a1
      unfold AtBound at a4
      rw [if_pos rfl] at a4
      exact ⟨fun _ => by omega, fun _ => rfl⟩
    · refine Tr.pure (fun _ h => ⟨h, fun hall hl2 => ?_⟩)
      obtain ⟨a1, a2⟩ := h1 hall
      have a3 := hl.2.mp (litTrue_neg' hl.1 a2)
      have a4 := mt hl'.2.mpr hl2
      refine ⟨a1, ?_⟩
      unfold AtBound
      rw [if_pos rfl]
      omega
  · have hu : up = false := by simpa using hu
    subst hu
    refine Tr.bindP (tr_getLiteral he.tt) (fun _ => by ext_auto) (fun l hl => ?_)
    refine tr_falseReason he (fun _ => by ext_auto) (fun r1 h1 => ?_)
    refine Tr.bindP (tr_update he.tt ?_) (fun _ => by ext_auto) (fun l' hl' => ?_)
    · intro _ t ht _
      split_ifs at ht with hc
      injection ht with ht
      subst ht
      simp only [Bool.and_eq_true, List.isEmpty_iff] at hc
      obtain ⟨a1, a2⟩ := h1 (by rw [hc.2]; simp)
      have a3 := mt hl.2.mpr a2
      have a4 := hk hc.1 a1
      unfold AtBound at a4
      rw [if_neg (by simp)] at a4
      exact ⟨(fun h => by cases h), fun h => by omega⟩
    · refine Tr.pure (fun _ h => ⟨h, fun hall hl2 => ?_⟩)
      obtain ⟨a1, a2⟩ := h1 hall
      have a3 := mt hl.2.mpr a2
      have a4 := hl'.2.mp (litTrue_neg' hl'.1 hl2)
      refine ⟨a1, ?_⟩
      unfold AtBound
      rw [if_neg (by simp)]
      omega

theorem tr_distinctConsequence {cc : CC} {s : Int} {isFact : Bool} (he : EnvSound cc β) : ∀ {es : List (Int × Nat)} {reason : List Int},
    (isFact = true → (∀ x ∈ reason, ¬ litTrue β x) → ∀ e ∈ es, ¬ AtBound σ F (decide (s * e.1 > 0)) e.2) →
    Tr β σ m (InvF β σ F) (distinctConsequence cc s isFact es reason)
      (fun r W => InvF β σ F W ∧ ∀ r', r = some r' → (∀ x ∈ r', ¬ litTrue β x) → (∀ x ∈ reason, ¬ litTrue β x) ∧
        ∀ e ∈ es, AtBound σ F (decide (s * e.1 > 0)) e.2)
  | [], reason, _ => Tr.pure (fun _ h => ⟨h, fun r' hr hall => by injection hr with hr; subst hr; exact ⟨hall, fun e he => by cases he⟩⟩)
  | (co, var) :: es, reason, hk => by
    unfold distinctConsequence
    refine Tr.bindP (tr_distinctStep he (fun h1 h2 => hk h1 h2 _ (List.mem_cons_self ..))) (fun _ => by ext_auto) (fun p hp => ?_)
    refine Tr.bind (tr_readF (fun _ _ _ h => (qTrue_iff.mp h).2)) (fun b => ?_)
    refine Tr.ite (fun _ => Tr.pure (fun _ h => ⟨h, fun r' hr => by cases hr⟩)) (fun _ => ?_)
    have hp' : (∀ x ∈ p.1 ++ [p.2], ¬ litTrue β x) → (∀ x ∈ reason, ¬ litTrue β x) ∧ AtBound σ F (decide (s * co > 0)) var :=
      fun h => hp (fun x hx => h x (by simp [hx])) (h p.2 (by simp))
    refine (tr_distinctConsequence he (fun h1 h2 e hm => hk h1 (hp' h2).1 e (List.mem_cons_of_mem _ hm))).post (fun r W h => ⟨h.1, fun r' hr hall => ?_⟩)
    obtain ⟨a1, a2⟩ := h.2 r' hr hall
    obtain ⟨a3, a4⟩ := hp' a1
    refine ⟨a3, fun e hm => ?_⟩
    rcases List.mem_cons.mp hm with rfl | hm
    · exact a4
    · exact a2 e hm

/-- The bound of an element used for direction `s`. -/
def extreme (F : List VarState × Book) (s : Int) (es : List (Int × Nat)) : Int := if s > 0 then upSum (loF F) (upF F) es else lowSum (loF F) (upF F) es

theorem wsum_cons {e : Int × Nat} {es : List (Int × Nat)} : wsum σ (e :: es) = e.1 * σ e.2 + wsum σ es := by simp [wsum]

theorem wsum_extreme {s : Int} (hs : s = 1 ∨ s = -1) : ∀ {es : List (Int × Nat)}, (∀ e ∈ es, AtBound σ F (decide (s * e.1 > 0)) e.2) →
    wsum σ es = extreme F s es
  | [], _ => by unfold extreme; split_ifs <;> rfl
  | (co, v) :: es, h => by
    have ih := wsum_extreme hs (fun e he => h e (List.mem_cons_of_mem _ he))
    have h0 := h (co, v) (List.mem_cons_self ..)
    rw [wsum_cons, ih]
    unfold AtBound at h0
    unfold extreme
    rcases hs with rfl | rfl
    · rw [if_pos (by decide), if_pos (by decide)]
      unfold upSum
      rw [lowSum]
      by_cases hc : co > 0
      · rw [if_pos (by simpa using hc)] at h0
        rw [if_pos hc, h0]
      · rw [if_neg (by simpa using hc)] at h0
        rw [if_neg hc, h0]
    · rw [if_neg (by decide), if_neg (by decide)]
      rw [lowSum]
      by_cases hc : co > 0
      · rw [if_neg (by simp; omega)] at h0
        rw [if_pos hc, h0]
      · by_cases hz : co = 0
        · subst hz; simp
        · rw [if_pos (by simp; omega)] at h0
          rw [if_neg hc, h0]

theorem wsum_fixed : ∀ {es : List (Int × Nat)}, (∀ e ∈ es, σ e.2 = loF F e.2 ∧ σ e.2 = upF F e.2) → wsum σ es = lowSum (loF F) (upF F) es
  | [], _ => rfl
  | (co, v) :: es, h => by
    have ih := wsum_fixed (fun e he => h e (List.mem_cons_of_mem _ he))
    obtain ⟨h1, h2⟩ := h (co, v) (List.mem_cons_self ..)
    dsimp only at h1 h2
    rw [wsum_cons, ih, lowSum]
    split_ifs
    · rw [← h1]
    · rw [← h2]

/-- If the literal of the constraint is fixed now or later, then it is true. -/
def FixedTrue (cc : CC) (β : Nat → Bool) (clit : Int) (log : List SEv) : Prop :=
  ∀ new, AllHold β (new ++ log) → cc.isFixed (new ++ log) clit = true → litTrue β clit

theorem FixedTrue.cons {cc : CC} {clit : Int} (e : SEv) (log : List SEv) (h : FixedTrue cc β clit log) : FixedTrue cc β clit (e :: log) := by
  intro new h1 h2
  have e1 : new ++ e :: log = (new ++ [e]) ++ log := by simp
  rw [e1] at h1 h2
  exact h _ h1 h2

theorem Tr.carry {P : World → Prop} {x : SM α} {Q : α → World → Prop} {S : List SEv → Prop} (hS : ∀ e log, S log → S (e :: log))
    (hx : Tr β σ m (fun W => P W ∧ S W.log) x Q) : Tr β σ m (fun W => P W ∧ S W.log) x (fun a W => Q a W ∧ S W.log) :=
  (Tr.keepLog hS hx).pre (fun _ h => ⟨h, h.2⟩)

theorem isFixed_neg {cc : CC} {log : List SEv} {l : Int} : cc.isFixed log (-l) = cc.isFixed log l := by
  unfold CC.isFixed
  rw [Int.natAbs_neg]

theorem tr_pushLit {cc : CC} {clit : Int} (hc : clit ≠ 0) :
    Tr β σ m (fun W => InvF β σ F W ∧ FixedTrue cc β clit W.log) (pushReason cc [] (-clit))
      (fun r W => InvF β σ F W ∧ ((∀ x ∈ r, ¬ litTrue β x) → litTrue β clit)) := by
  intro W a W' hx
  refine ⟨ext_pushReason.ext _ _ _ hx, ?_⟩
  rintro ⟨hi, hf⟩ hr
  unfold pushReason at hx
  simp only [smok] at hx
  obtain ⟨f, W1, ⟨rfl, rfl⟩, rfl, rfl⟩ := hx
  refine ⟨hi, fun hall => ?_⟩
  split_ifs at hall with h1
  · exact hf [] hi.1.good.posted (isFixed_neg ▸ h1)
  · exact litTrue_neg' hc (hall (-clit) (by simp))

theorem tr_distinctPair {cc : CC} {clit : Int} {es : List (List (Int × Nat) × Int)} {s : Int} {i j : Nat} (he : EnvSound cc β) (hc : clit ≠ 0)
    (hs : s = 1 ∨ s = -1) (hij : i ≠ j) (hd : litTrue β clit → pairwiseNe (es.map (fun e => wsum σ e.1 + e.2)))
    (hv : ∀ ei ej, es[i]? = some ei → es[j]? = some ej → lowSum (loF F) (upF F) ei.1 + ei.2 = extreme F s ej.1 + ej.2) :
    Tr β σ m (fun W => InvF β σ F W ∧ FixedTrue cc β clit W.log) (distinctPair cc clit es s i j) (fun _ W => InvF β σ F W ∧ FixedTrue cc β clit W.log) := by
  refine Tr.carry (Q := fun _ W => InvF β σ F W) FixedTrue.cons ?_
  unfold distinctPair
  cases hi : es[i]? with
  | none => exact Tr.ub
  | some ei =>
  cases hj : es[j]? with
  | none => exact Tr.ub
  | some ej =>
  dsimp only
  have hne : litTrue β clit → wsum σ ei.1 + ei.2 ≠ wsum σ ej.1 + ej.2 := by
    intro ht
    have hp := List.pairwise_iff_getElem.mp (hd ht)
    obtain ⟨b1, e1⟩ := List.getElem?_eq_some_iff.mp hi
    obtain ⟨b2, e2⟩ := List.getElem?_eq_some_iff.mp hj
    rcases Nat.lt_or_gt_of_ne hij with hlt | hlt
    · have := hp i j (by simpa using b1) (by simpa using b2) hlt
      simpa [e1, e2] using this
    · have := hp j i (by simpa using b2) (by simpa using b1) hlt
      simpa [e1, e2] using this.symm
  refine Tr.bind (tr_pushLit hc) (fun r1 => Tr.assume (by ext_auto) (fun h1 => ?_))
  refine Tr.bindP (tr_distinctReason he) (fun _ => by ext_auto) (fun r2 h2 => ?_)
  have key : (∀ x ∈ r2, ¬ litTrue β x) → (∀ e ∈ ej.1, AtBound σ F (decide (s * e.1 > 0)) e.2) → False := by
    intro a1 a2
    obtain ⟨a3, a4⟩ := h2 a1
    refine hne (h1 a3) ?_
    rw [wsum_extreme hs a2, wsum_fixed a4]
    exact hv ei ej hi hj
  refine Tr.bindP (tr_distinctConsequence he (fun hf a1 e hm a2 => ?_)) (fun _ => by ext_auto) (fun r3 h3 => ?_)
  · have hlen : ej.1.length = 1 := by simpa using hf
    obtain ⟨e', he'⟩ := List.length_eq_one_iff.mp hlen
    refine key a1 (fun e2 hm2 => ?_)
    rw [he', List.mem_singleton] at hm hm2
    subst hm hm2
    exact a2
  · cases r3 with
    | none => exact Tr.pure (fun _ h => h)
    | some r3 =>
      refine (tr_clause (fun _ => ?_)).post (fun _ _ h => h.1)
      by_contra hcon
      push Not at hcon
      obtain ⟨a1, a2⟩ := h3 r3 rfl hcon
      exact key a1 a2

/-- What is known about the state of the constraint after updating it. -/
structure DistSt (F : List VarState × Book) (es : List (List (Int × Nat) × Int)) (c : CState) : Prop where
  len : c.assigned.length = es.length
  low : ∀ b j, (b, j) ∈ c.lowerSet ↔ ∃ q, c.assigned[j]? = some q ∧ q.1 = b
  upp : ∀ b j, (b, j) ∈ c.upperSet ↔ ∃ q, c.assigned[j]? = some q ∧ q.2 = b
  val : ∀ (idx : Nat) e, es[idx]? = some e → c.assigned[idx]? = some (lowSum (loF F) (upF F) e.1 + e.2, upSum (loF F) (upF F) e.1 + e.2)

theorem mem_boundRange {value : Int} {S : List (Int × Nat)} {j : Nat} : j ∈ boundRange value S ↔ (value, j) ∈ S := by
  unfold boundRange
  simp

theorem tr_distinctPairs {cc : CC} {clit : Int} {es : List (List (Int × Nat) × Int)} {s : Int} {i : Nat} (he : EnvSound cc β) (hc : clit ≠ 0)
    (hs : s = 1 ∨ s = -1) (hd : litTrue β clit → pairwiseNe (es.map (fun e => wsum σ e.1 + e.2))) : ∀ {js : List Nat},
    (∀ j ∈ js, ∀ ei ej, es[i]? = some ei → es[j]? = some ej → lowSum (loF F) (upF F) ei.1 + ei.2 = extreme F s ej.1 + ej.2) →
    Tr β σ m (fun W => InvF β σ F W ∧ FixedTrue cc β clit W.log) (distinctPairs cc clit es s i js) (fun _ W => InvF β σ F W ∧ FixedTrue cc β clit W.log)
  | [], _ => Tr.pure (fun _ h => h)
  | j :: js, hv => by
    have ih := tr_distinctPairs he hc hs hd (js := js) (fun j hj => hv j (List.mem_cons_of_mem _ hj))
    unfold distinctPairs
    refine Tr.ite (fun _ => ih) (fun hij => ?_)
    refine Tr.bind (tr_distinctPair he hc hs (fun e => hij e.symm) hd (hv j (List.mem_cons_self ..))) (fun b => ?_)
    exact Tr.ite (fun _ => Tr.pure (fun _ h => h)) (fun _ => ih)

theorem tr_distinctTodo {cc : CC} {c : CState} {clit : Int} {es : List (List (Int × Nat) × Int)} {s : Int} (he : EnvSound cc β) (hc : clit ≠ 0)
    (hs : s = 1 ∨ s = -1) (hd : litTrue β clit → pairwiseNe (es.map (fun e => wsum σ e.1 + e.2))) (hst : DistSt F es c) : ∀ {is : List Nat},
    Tr β σ m (fun W => InvF β σ F W ∧ FixedTrue cc β clit W.log) (distinctTodo cc c clit es s is) (fun _ W => InvF β σ F W ∧ FixedTrue cc β clit W.log)
  | [] => Tr.pure (fun _ h => h)
  | i :: is => by
    have ih := tr_distinctTodo he hc hs hd hst (is := is)
    unfold distinctTodo
    cases ha : c.assigned[i]? with
    | none => exact Tr.ub
    | some p =>
    obtain ⟨lower, upper⟩ := p
    dsimp only
    refine Tr.bind (Q := fun _ W => InvF β σ F W ∧ FixedTrue cc β clit W.log) ?_ (fun b => Tr.ite (fun _ => Tr.pure (fun _ h => h)) (fun _ => ih))
    have hval : ∀ {k : Nat} {e : List (Int × Nat) × Int} {q : Int × Int}, es[k]? = some e → c.assigned[k]? = some q →
        q = (lowSum (loF F) (upF F) e.1 + e.2, upSum (loF F) (upF F) e.1 + e.2) := by
      intro k e q h1 h2
      rw [hst.val k e h1] at h2
      injection h2 with h2
      exact h2.symm
    refine Tr.ite (fun heq => ?_) (fun hne => ?_)
    · subst heq
      unfold distinctAssigned
      refine Tr.bind (tr_distinctPairs he hc (.inl rfl) hd (fun j hj ei ej hi' hj' => ?_)) (fun b => Tr.ite (fun _ => Tr.pure (fun _ h => h)) (fun _ => ?_))
      · obtain ⟨q, hq, hq2⟩ := (hst.upp _ _).mp (mem_boundRange.mp hj)
        have a1 := hval hi' ha
        have a2 := hval hj' hq
        subst a2
        rw [← show lower = lowSum (loF F) (upF F) ei.1 + ei.2 from congrArg Prod.fst a1]
        unfold extreme
        rw [if_pos (by decide)]
        exact hq2.symm
      · refine tr_distinctPairs he hc (.inr rfl) hd (fun j hj ei ej hi' hj' => ?_)
        obtain ⟨q, hq, hq2⟩ := (hst.low _ _).mp (mem_boundRange.mp hj)
        have a1 := hval hi' ha
        have a2 := hval hj' hq
        subst a2
        rw [← show lower = lowSum (loF F) (upF F) ei.1 + ei.2 from congrArg Prod.fst a1]
        unfold extreme
        rw [if_neg (by decide)]
        exact hq2.symm
    · cases hfa : firstAssigned c (if s < 0 then boundRange lower c.lowerSet else boundRange upper c.upperSet) with
      | none => exact Tr.pure (fun _ h => h)
      | some j =>
        dsimp only
        unfold firstAssigned at hfa
        split at hfa
        · cases hfa
        · rename_i j' hfind
          split_ifs at hfa with htodo
          injection hfa with hfa
          subst hfa
          have hm := List.mem_of_find?_eq_some hfind
          have heq : (c.assigned.getD j' (0, 1)).1 = (c.assigned.getD j' (0, 1)).2 := by simpa using List.find?_some hfind
          have hex : ∀ q, c.assigned[j']? = some q → q.1 = q.2 := by
            intro q hq
            rw [List.getD_eq_getElem?_getD, hq] at heq
            exact heq
          have hneq : j' ≠ i := by
            rintro rfl
            exact hne (hex _ ha)
          refine tr_distinctPair he hc hs hneq hd (fun ei ej hi' hj' => ?_)
          have a1 := hval hj' ha
          unfold extreme
          rcases hs with rfl | rfl
          · rw [if_neg (by decide)] at hm
            obtain ⟨q, hq, hq2⟩ := (hst.upp _ _).mp (mem_boundRange.mp hm)
            have a2 := hval hi' hq
            have a3 := hex q hq
            rw [if_pos (by decide), ← show upper = upSum (loF F) (upF F) ej.1 + ej.2 from congrArg Prod.snd a1,
              ← show q.1 = lowSum (loF F) (upF F) ei.1 + ei.2 from congrArg Prod.fst a2, a3, hq2]
          · rw [if_pos (by decide)] at hm
            obtain ⟨q, hq, hq2⟩ := (hst.low _ _).mp (mem_boundRange.mp hm)
            have a2 := hval hi' hq
            rw [if_neg (by decide), ← show lower = lowSum (loF F) (upF F) ej.1 + ej.2 from congrArg Prod.fst a1,
              ← show q.1 = lowSum (loF F) (upF F) ei.1 + ei.2 from congrArg Prod.fst a2, hq2]

/-- Propagation of a distinct constraint that knows its bounds. -/
theorem distinctPropagate_sound {cc : CC} {n : Nat} {clit : Int} {es : List (List (Int × Nat) × Int)} {W W' : World} {r : Bool} (he : EnvSound cc β)
    (hc : clit ≠ 0) (hi : Inv β σ W) (hf : FixedTrue cc β clit W.log) (hd : litTrue β clit → pairwiseNe (es.map (fun e => wsum σ e.1 + e.2)))
    (hk : ∀ c, W.book.cs[n]? = some c → c.con = .distinct clit es ∧ Counted c (loF (frame W)) (upF (frame W)))
    (h : distinctPropagate cc n clit es W = .ok (r, W')) (hr : Asm β σ m W') : Inv β σ W' := by
  unfold distinctPropagate at h
  obtain ⟨c, W1, h1, h2⟩ := SM.bind_ok h
  obtain ⟨⟨hcs, -⟩, rfl⟩ := getCS_iff.mp h1
  obtain ⟨c', W2, h3, h4⟩ := SM.bind_ok h2
  obtain ⟨u, W3, h5, h6⟩ := SM.bind_ok h4
  obtain ⟨hcon, hct⟩ := hk c hcs
  unfold Counted Mid at hct
  rw [hcon] at hct
  obtain ⟨k1, k2, k3, k4⟩ := hct
  obtain ⟨rfl, r2, r3, r4, r5, r6, -⟩ := distinctUpdate_eff h3 k1.mark k1.low k1.upp k1.nodupL k1.nodupU k1.todo k3 k4
  injection h5 with h5
  obtain ⟨-, rfl⟩ := Prod.mk.inj h5
  set W3 : World := { W2 with book.cs := W2.book.cs.set n c' } with hW3
  have hi3 : Inv β σ W3 := ⟨⟨hi.good.pos, hi.good.table, hi.good.bound, hi.good.litmap, hi.good.facts, hi.good.posted⟩, hi.wf⟩
  have hst : DistSt (frame W3) es c' := ⟨r5, r3.low, r3.upp, r6⟩
  have key : Tr β σ m (fun W => InvF β σ (frame W3) W ∧ FixedTrue cc β clit W.log) (do
      if !(← distinctTodo cc c' clit es (-1) c'.todoLower) then return false
      else if !(← distinctTodo cc c' clit es 1 c'.todoUpper) then return false
      else do
        let c ← getCS n
        setCS n c.clearTodo
        return true) (fun _ W => Inv β σ W) := by
    refine Tr.bind (tr_distinctTodo he hc (.inr rfl) hd hst) (fun b => Tr.ite (fun _ => Tr.pure (fun _ h => h.1.1)) (fun _ => ?_))
    refine Tr.bind (tr_distinctTodo he hc (.inl rfl) hd hst) (fun b => Tr.ite (fun _ => Tr.pure (fun _ h => h.1.1)) (fun _ => ?_))
    refine Tr.bind (Q := fun _ W => Inv β σ W) (tr_read (P := fun W => Inv β σ W) (fun _ _ _ h => (getCS_iff.mp h).2) |>.pre (fun _ h => h.1.1)) (fun c => ?_)
    refine Tr.bind (Q := fun _ W => Inv β σ W) ?_ (fun _ => Tr.pure (fun _ h => h))
    exact Tr.modify (fun _ => Grow.same rfl rfl) (fun W h _ =>
      ⟨⟨h.good.pos, h.good.table, h.good.bound, h.good.litmap, h.good.facts, h.good.posted⟩, h.wf⟩)
  exact (key W3 r W' h6).2 ⟨⟨hi3, rfl⟩, hf⟩ hr

end Clingcon
