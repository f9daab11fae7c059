import Verif.Proof.Parsing
import Verif.Spec.Events
import Verif.Spec.Relations

/-! Helper lemmas about `normalize_constraint`. -/
namespace Clingcon
open Spec
set_option linter.unusedSimpArgs false

/-- The computation only extends the log, and the extension is equivalent to `Q`; if the computation was
aborted, then both are contradictory. -/
def Emits (τ : Nat → Int) (log0 : List Event) (Base : (Nat → Bool) → Prop) (n : Int) (c : BM Bool)
    (Q : (Nat → Bool) → Prop) : Prop :=
  ∀ s b s' pre, s.log = log0 ++ pre → s.nextLit = n → c s = .ok (b, s') → ∃ new, s' = { s with log := s.log ++ new } ∧
    (∀ e ∈ new, ∀ β β', agreeBelow n β β' → (holds β τ e ↔ holds β' τ e)) ∧ ∀ β, Base β → (∀ e ∈ pre, holds β τ e) →
      (Q β ↔ ∀ e ∈ new, holds β τ e) ∧ (b = false → ¬ Q β)

section
variable {τ : Nat → Int} {log0 : List Event} {Base : (Nat → Bool) → Prop} {n n0 : Int}

theorem emits_congr {c : BM Bool} {Q Q' : (Nat → Bool) → Prop} (h : Emits τ log0 Base n c Q)
    (hq : ∀ β, Base β → (Q β ↔ Q' β)) : Emits τ log0 Base n c Q' := by
  intro s b s' pre hl hn hc
  obtain ⟨new, h1, h3, h2⟩ := h s b s' pre hl hn hc
  refine ⟨new, h1, h3, fun β hb hp => ?_⟩
  have := h2 β hb hp
  have := hq β hb
  tauto

theorem emits_andThen {c1 c2 : BM Bool} {Q1 Q2 : (Nat → Bool) → Prop} (h1 : Emits τ log0 Base n c1 Q1)
    (h2 : Emits τ log0 Base n c2 Q2) : Emits τ log0 Base n (andThen c1 c2) (fun β => Q1 β ∧ Q2 β) := by
  intro s b s' pre hl hn hc
  unfold andThen at hc
  obtain ⟨b1, s1, k1, hc⟩ := bindS_ok hc
  obtain ⟨new1, e1, l1, f1⟩ := h1 s b1 s1 pre hl hn k1
  cases b1 with
  | false =>
    simp only [Bool.false_eq_true, if_false] at hc
    have hc := pureS_ok hc
    simp only [Prod.mk.injEq] at hc
    obtain ⟨rfl, rfl⟩ := hc
    refine ⟨new1, e1, l1, fun β hb hp => ?_⟩
    obtain ⟨g1, g2⟩ := f1 β hb hp
    have g2 := g2 rfl
    rw [← g1]
    simp [g2]
  | true =>
    simp only [if_true] at hc
    subst e1
    obtain ⟨new2, e2, l2, f2⟩ := h2 { s with log := s.log ++ new1 } b s' (pre ++ new1) (by simp [hl]) hn hc
    refine ⟨new1 ++ new2, by rw [e2]; simp, ?_, fun β hb hp => ?_⟩
    · intro e he
      rcases List.mem_append.1 he with he | he
      · exact l1 e he
      · exact l2 e he
    obtain ⟨g1, -⟩ := f1 β hb hp
    have f2 := f2 β hb
    simp only [List.mem_append, or_imp, forall_and] at f2 ⊢
    rw [← g1]
    by_cases hq : Q1 β
    · obtain ⟨g3, g4⟩ := And.intro (f2.1 ⟨hp, g1.1 hq⟩) (f2.2 ⟨hp, g1.1 hq⟩)
      simp only [hq, true_and]
      exact ⟨g3, g4⟩
    · simp [hq]

theorem emits_lift {α : Type} {r : Res α} {c : α → BM Bool} {Q : (Nat → Bool) → Prop}
    (h : ∀ a, r = .ok a → Emits τ log0 Base n (c a) Q) : Emits τ log0 Base n (do let a ← liftM r; c a) Q := by
  intro s b s' pre hl hn hc
  obtain ⟨a, k, hc⟩ := liftBind_ok hc
  exact h a k s b s' pre hl hn hc

theorem emits_post {env : BEnv} (ho : Oracle env τ log0 n0 Base) {e : Event} (hloc : ∀ β β', agreeBelow n β β' → (holds β τ e ↔ holds β' τ e)) :
    Emits τ log0 Base n (post env e) (fun β => holds β τ e) := by
  intro s b s' pre hl hn hc
  simp only [post, Except.ok.injEq, Prod.mk.injEq] at hc
  obtain ⟨rfl, rfl⟩ := hc
  exact ⟨[e], rfl, by simpa using hloc, fun β hb hp => ⟨by simp, fun h =>
    ho.rejects pre e β (by rw [← hl]; exact h) hb hp⟩⟩

theorem clause_congr {c : List Int} (h : ∀ l ∈ c, |l| < n) (β β' : Nat → Bool) (ha : agreeBelow n β β') :
    holds β τ (.clause c) ↔ holds β' τ (.clause c) := by
  simp only [holds]
  refine exists_congr fun l => and_congr_right fun hl => litTrue_congr ha (h l hl)

macro "clause_loc" : tactic =>
  `(tactic| (refine clause_congr ?_; simp only [List.mem_cons, List.not_mem_nil, or_false, forall_eq_or_imp,
    forall_eq, abs_neg]; first | exact ⟨by assumption, by assumption⟩ | exact ⟨by assumption, by assumption, by assumption⟩))

variable {V : Type} {env : BEnv}

/-- The way in which constraints are passed to the builder preserves their meaning. -/
def AddOK (env : BEnv) (τ : Nat → Int) (den : V → Int) (add : AddConstraint V) (vars : List V) : Prop :=
  ∀ lit elems rhs strict s b s', elems.map Prod.snd = vars → add lit elems rhs strict s = .ok (b, s') →
    ∃ e, s' = { s with log := s.log ++ [e] } ∧ b = env.accept s.log e ∧ ∀ β, holds β τ e ↔ attached β lit strict (wsum den elems ≤ rhs)

theorem addOK_linear (vars : List Nat) : AddOK env τ (linDen τ) (addLinear env) vars := by
  intro lit elems rhs strict s b s' _ h
  simp only [addLinear, post, Except.ok.injEq, Prod.mk.injEq] at h
  obtain ⟨rfl, rfl⟩ := h
  exact ⟨_, rfl, rfl, fun β => Iff.rfl⟩

variable {den : V → Int} {add : AddConstraint V} {vars : List V}

theorem rewriteRel_spec {elems elems' : List (Int × V)} {op op' : Rel} {rhs rhs' : Int}
    (h : rewriteRel elems op rhs = .ok (elems', op', rhs')) :
    elems'.map Prod.snd = elems.map Prod.snd ∧ (op' = .le ∨ op' = .eq ∧ op = .eq ∨ op' = .ne ∧ op = .ne) ∧
    ∀ den, (relHolds op' (wsum den elems') rhs' ↔ relHolds op (wsum den elems) rhs) := by
  unfold rewriteRel at h
  cases op with
  | gt =>
    simp only at h
    obtain ⟨r1, k1, h⟩ := bind_ok h
    obtain ⟨r2, k2, h⟩ := bind_ok h
    obtain ⟨el, k3, h⟩ := bind_ok h
    have h := pure_ok h
    simp only [Prod.mk.injEq] at h
    obtain ⟨rfl, rfl, rfl⟩ := h
    obtain ⟨rfl, -⟩ := safeAdd_ok k1
    obtain ⟨rfl, -⟩ := safeInv_ok k2
    obtain ⟨i1, i2, -⟩ := invAll_spec k3
    refine ⟨i1, by simp, fun den => ?_⟩
    simp only [relHolds, i2 den]; omega
  | ge =>
    simp only at h
    obtain ⟨r2, k2, h⟩ := bind_ok h
    obtain ⟨el, k3, h⟩ := bind_ok h
    have h := pure_ok h
    simp only [Prod.mk.injEq] at h
    obtain ⟨rfl, rfl, rfl⟩ := h
    obtain ⟨rfl, -⟩ := safeInv_ok k2
    obtain ⟨i1, i2, -⟩ := invAll_spec k3
    refine ⟨i1, by simp, fun den => ?_⟩
    simp only [relHolds, i2 den]; omega
  | lt =>
    simp only at h
    obtain ⟨r2, k2, h⟩ := bind_ok h
    have h := pure_ok h
    simp only [Prod.mk.injEq] at h
    obtain ⟨rfl, rfl, rfl⟩ := h
    obtain ⟨rfl, -⟩ := safeSub_ok k2
    refine ⟨rfl, by simp, fun den => ?_⟩
    simp only [relHolds]; omega
  | le =>
    have h := pure_ok h
    simp only [Prod.mk.injEq] at h
    obtain ⟨rfl, rfl, rfl⟩ := h
    simp
  | eq =>
    have h := pure_ok h
    simp only [Prod.mk.injEq] at h
    obtain ⟨rfl, rfl, rfl⟩ := h
    simp
  | ne =>
    have h := pure_ok h
    simp only [Prod.mk.injEq] at h
    obtain ⟨rfl, rfl, rfl⟩ := h
    simp

theorem rewriteRel_le {elems : List (Int × V)} {op : Rel} {rhs : Int} {r : List (Int × V) × Rel × Int}
    (h : rewriteRel elems op rhs = .ok r) (h1 : op ≠ .eq) (h2 : op ≠ .ne) :
    r.1.map Prod.snd = elems.map Prod.snd ∧ ∀ den, (wsum den r.1 ≤ r.2.2 ↔ relHolds op (wsum den elems) rhs) := by
  obtain ⟨e, o, c⟩ := r
  obtain ⟨i1, i2, i3⟩ := rewriteRel_spec h
  have : o = .le := by tauto
  subst this
  exact ⟨i1, i3⟩

variable (ho : Oracle env τ log0 n0 Base)

include ho in
theorem emits_add (ha : AddOK env τ den add vars) {lit : Int} (hn : |lit| < n) {elems : List (Int × V)} {rhs : Int} {strict : Bool}
    (hv : elems.map Prod.snd = vars) :
    Emits τ log0 Base n (add lit elems rhs strict) (fun β => attached β lit strict (wsum den elems ≤ rhs)) := by
  intro s b s' pre hl _ hc
  obtain ⟨e, e1, e3, e2⟩ := ha lit elems rhs strict s b s' hv hc
  refine ⟨[e], e1, ?_, fun β hb hp => ⟨by simp [e2], fun h => ?_⟩⟩
  · simp only [List.mem_singleton, forall_eq]
    intro β β' h
    simp only [e2, attached, litTrue_congr h hn]
  · show ¬ attached β lit strict (wsum den elems ≤ rhs)
    rw [← e2 β]
    exact ho.rejects pre e β (by rw [← hl, ← e3]; exact h) hb hp

include ho in
theorem emits_isTrue {l : Int} {c1 c2 : BM Bool} {Q1 Q2 : (Nat → Bool) → Prop}
    (h1 : Emits τ log0 Base n c1 Q1) (h2 : Emits τ log0 Base n c2 Q2) (hq : ∀ β, Base β → litTrue β l → (Q1 β ↔ Q2 β)) :
    Emits τ log0 Base n (do if ← isTrue env l then c1 else c2) Q2 := by
  intro s b s' pre hl hn hc
  obtain ⟨t, s1, k1, hc⟩ := bindS_ok hc
  simp only [isTrue, Except.ok.injEq, Prod.mk.injEq] at k1
  obtain ⟨rfl, rfl⟩ := k1
  cases ht : env.isTrue s.log l with
  | false =>
    rw [ht] at hc
    simp only [Bool.false_eq_true, if_false] at hc
    exact h2 _ _ _ _ hl hn hc
  | true =>
    rw [ht] at hc
    simp only [if_true] at hc
    obtain ⟨new, e1, l1, f1⟩ := h1 _ _ _ _ hl hn hc
    refine ⟨new, e1, l1, fun β hb hp => ?_⟩
    have := hq β hb (ho.sound pre l β (by rw [← hl]; exact ht) hb hp)
    have := f1 β hb hp
    tauto

theorem emits_pure : Emits τ log0 Base n (pure true) (fun _ => True) := by
  intro s b s' pre hl hn hc
  have hc := pureS_ok hc
  simp only [Prod.mk.injEq] at hc
  obtain ⟨rfl, rfl⟩ := hc
  exact ⟨[], by simp, by simp, fun β _ _ => by simp⟩

include ho in
theorem emits_le1 (ha : AddOK env τ den add vars) {lit : Int} (hlit : lit ≠ 0) (hn : |lit| < n) {elems : List (Int × V)} {rhs : Int}
    (hv : elems.map Prod.snd = vars) :
    Emits τ log0 Base n (normalizeLe1 env add lit elems rhs) (fun β => litTrue β lit → wsum den elems ≤ rhs) := by
  unfold normalizeLe1
  refine emits_isTrue ho emits_pure (emits_congr (emits_add ho ha hn hv) ?_) ?_
  · intro β _; simp [attached]
  · intro β _ h
    rw [litTrue_neg β lit hlit] at h
    tauto

include ho in
theorem emits_le (ha : AddOK env τ den add vars) {lit : Int} (hlit : lit ≠ 0) (hn : |lit| < n) {elems : List (Int × V)} {rhs : Int}
    {strict : Bool} (hv : elems.map Prod.snd = vars) :
    Emits τ log0 Base n (normalizeLe env add lit elems rhs strict)
      (fun β => attached β lit strict (wsum den elems ≤ rhs)) := by
  unfold normalizeLe
  split_ifs with hs h1
  · subst hs; exact emits_add ho ha hn hv
  · subst hs
    refine emits_congr (emits_andThen (emits_le1 ho ha hlit hn hv) (emits_lift fun r hr => ?_))
      (Q := fun β => (litTrue β lit → wsum den elems ≤ rhs) ∧ (litTrue β (-lit) → wsum den elems > rhs)) ?_
    · obtain ⟨i1, i2⟩ := rewriteRel_le hr (by simp) (by simp)
      refine emits_congr (emits_le1 ho ha (by simpa using hlit) (by rwa [abs_neg]) (i1.trans hv)) ?_
      intro β _
      rw [i2 den]; rfl
    · intro β _
      simp only [attached, if_true, litTrue_neg β lit hlit]
      by_cases hh : litTrue β lit <;> simp [hh]
  · have : strict = false := by simpa using hs
    subst this
    refine emits_congr (emits_le1 ho ha hlit hn hv) ?_
    intro β _; simp [attached]

include ho in
theorem emits_both (ha : AddOK env τ den add vars) {a b : Int} (h1 : a ≠ 0) (h2 : b ≠ 0) (n1 : |a| < n) (n2 : |b| < n) {elems : List (Int × V)} {rhs : Int}
    {strict : Bool} (hv : elems.map Prod.snd = vars) :
    Emits τ log0 Base n (normalizeBoth env add a b elems rhs strict)
      (fun β => attached β a strict (wsum den elems ≤ rhs) ∧ attached β b strict (wsum den elems ≥ rhs)) := by
  unfold normalizeBoth
  refine emits_andThen (emits_le ho ha h1 n1 hv) (emits_lift fun r hr => ?_)
  obtain ⟨i1, i2⟩ := rewriteRel_le hr (by simp) (by simp)
  refine emits_congr (emits_le ho ha h2 n2 (i1.trans hv)) ?_
  intro β _
  rw [i2 den]; rfl

include ho in
theorem emits_eqLits (ha : AddOK env τ den add vars) {lit a b : Int} (h0 : lit ≠ 0) (n0 : |lit| < n) (h1 : a ≠ 0) (h2 : b ≠ 0) (n1 : |a| < n) (n2 : |b| < n)
    {elems : List (Int × V)} {rhs : Int} (hv : elems.map Prod.snd = vars) :
    Emits τ log0 Base n (normalizeEqLits env add lit a b elems rhs)
      (fun β => (litTrue β lit ↔ wsum den elems = rhs) ∧ (litTrue β a ↔ wsum den elems ≤ rhs) ∧
        (litTrue β b ↔ wsum den elems ≥ rhs)) := by
  unfold normalizeEqLits
  refine emits_congr (emits_andThen (emits_post ho (by clause_loc)) <| emits_andThen (emits_post ho (by clause_loc)) <| emits_andThen (emits_post ho (by clause_loc)) <|
    emits_both ho ha h1 h2 n1 n2 hv) ?_
  intro β _
  simp only [holds, List.mem_cons, List.not_mem_nil, or_false, exists_eq_or_imp, exists_eq_left, attached, if_true,
    litTrue_neg β lit h0, litTrue_neg β a h1, litTrue_neg β b h2]
  have : wsum den elems = rhs ↔ (wsum den elems ≤ rhs ∧ wsum den elems ≥ rhs) := by omega
  rw [this]
  generalize (wsum den elems ≤ rhs) = X
  generalize (wsum den elems ≥ rhs) = Y
  by_cases hl : litTrue β lit <;> by_cases hA : litTrue β a <;> by_cases hB : litTrue β b <;> by_cases hX : X <;>
      by_cases hY : Y <;> simp_all

include ho in
theorem emits_neLits (ha : AddOK env τ den add vars) {lit a b : Int} (h0 : lit ≠ 0) (n0 : |lit| < n) (h1 : a ≠ 0) (h2 : b ≠ 0) (n1 : |a| < n) (n2 : |b| < n)
    {elems : List (Int × V)} {rhs : Int} (hv : elems.map Prod.snd = vars) :
    Emits τ log0 Base n (normalizeNeLits env add lit a b elems rhs)
      (fun β => (litTrue β lit → wsum den elems ≠ rhs) ∧ (litTrue β a ↔ litTrue β lit ∧ wsum den elems < rhs) ∧
        (litTrue β b ↔ litTrue β lit ∧ wsum den elems > rhs)) := by
  unfold normalizeNeLits
  have k1 : Emits τ log0 Base n (do
      let r ← liftM (rewriteRel elems .lt rhs)
      normalizeLe env add a r.1 r.2.2 false) (fun β => litTrue β a → wsum den elems < rhs) := by
    refine emits_lift fun r hr => ?_
    obtain ⟨i1, i2⟩ := rewriteRel_le hr (by simp) (by simp)
    refine emits_congr (emits_le ho ha h1 n1 (i1.trans hv)) ?_
    intro β _
    simp only [attached, Bool.false_eq_true, if_false]
    rw [i2 den]; rfl
  have k2 : Emits τ log0 Base n (do
      let r ← liftM (rewriteRel elems .gt rhs)
      normalizeLe env add b r.1 r.2.2 false) (fun β => litTrue β b → wsum den elems > rhs) := by
    refine emits_lift fun r hr => ?_
    obtain ⟨i1, i2⟩ := rewriteRel_le hr (by simp) (by simp)
    refine emits_congr (emits_le ho ha h2 n2 (i1.trans hv)) ?_
    intro β _
    simp only [attached, Bool.false_eq_true, if_false]
    rw [i2 den]; rfl
  refine emits_congr (emits_andThen (emits_post ho (by clause_loc)) <| emits_andThen (emits_post ho (by clause_loc)) <| emits_andThen (emits_post ho (by clause_loc)) <|
    emits_andThen (emits_post ho (by clause_loc)) <| emits_andThen k1 k2) ?_
  intro β _
  simp only [holds, List.mem_cons, List.not_mem_nil, or_false, exists_eq_or_imp, exists_eq_left, attached, if_true,
      litTrue_neg β lit h0, litTrue_neg β a h1, litTrue_neg β b h2]
  have hx : (wsum den elems ≠ rhs) ↔ (wsum den elems < rhs ∨ wsum den elems > rhs) := by omega
  have hy : ¬ (wsum den elems < rhs ∧ wsum den elems > rhs) := by omega
  rw [hx]
  revert hy
  generalize (wsum den elems < rhs) = X
  generalize (wsum den elems > rhs) = Y
  intro hy
  by_cases hl : litTrue β lit <;> by_cases hA : litTrue β a <;> by_cases hB : litTrue β b <;> by_cases hX : X <;>
      by_cases hY : Y <;> simp_all

/-- Meaning of a computation that introduces fresh literals, for a state whose next fresh literal is
`n0`: the new events are equivalent to `P` together with a definition `δ` of the fresh literals. -/
def Defines (τ : Nat → Int) (Base : (Nat → Bool) → Prop) (n0 : Int) (s : BState)
    (c : BM Bool) (P : (Nat → Bool) → Prop) : Prop :=
  ∀ b s', c s = .ok (b, s') → ∃ (new : List Event) (k : Nat) (δ : (Nat → Bool) → Nat → Prop),
    s' = { s with log := s.log ++ new, nextLit := n0 + k } ∧
    (∀ e ∈ new, ∀ β β', agreeBelow (n0 + k) β β' → (holds β τ e ↔ holds β' τ e)) ∧
    (∀ β β', agreeBelow n0 β β' → ∀ i, δ β i ↔ δ β' i) ∧
    ∀ β, Base β →
      ((P β ∧ ∀ i < k, litTrue β (n0 + i) ↔ δ β i) ↔ ∀ e ∈ new, holds β τ e) ∧ (b = false → ¬ P β)

theorem defines_of_emits {c : BM Bool} {P : (Nat → Bool) → Prop} (h : Emits τ log0 Base n0 c P) {s : BState}
    (hl : s.log = log0) (hn : s.nextLit = n0) : Defines τ Base n0 s c P := by
  intro b s' hc
  obtain ⟨new, e1, l1, f1⟩ := h s b s' [] (by simp [hl]) hn hc
  refine ⟨new, 0, fun _ _ => True, ?_, by simpa using l1, by simp, fun β hb => ?_⟩
  · rw [e1, ← hn]; simp
  · have := f1 β hb (by simp)
    simpa using this

theorem defines_congr {c : BM Bool} {P P' : (Nat → Bool) → Prop} {s : BState} (h : Defines τ Base n0 s c P)
    (hp : ∀ β, Base β → (P β ↔ P' β)) : Defines τ Base n0 s c P' := by
  intro b s' hc
  obtain ⟨new, k, δ, h1, h2, h3, h4⟩ := h b s' hc
  refine ⟨new, k, δ, h1, h2, h3, fun β hb => ?_⟩
  have := h4 β hb
  rw [hp β hb] at this
  exact this

/-- Extend a truth assignment by a definition of fresh literals. -/
theorem extend {n0 : Int} (hp : 0 < n0) (β : Nat → Bool) (δ : Nat → Prop) :
    ∃ β', agreeBelow n0 β β' ∧ ∀ i : Nat, litTrue β' (n0 + i) ↔ δ i := by
  classical
  refine ⟨fun k => if (k : Int) < n0 then β k else decide (δ (k - n0.toNat)), fun k hk => by simp [hk], fun i => ?_⟩
  unfold litTrue
  rw [if_pos (by omega)]
  have h1 : ¬ (((n0 + i).natAbs : Nat) : Int) < n0 := by omega
  have h2 : (n0 + i).natAbs - n0.toNat = i := by omega
  simp only [h1, h2, if_false, decide_eq_true_eq]

theorem defines_two {c : Int → Int → BM Bool} {P A B : (Nat → Bool) → Prop}
    (hpos : 0 < n0) (hloc : ∀ β β', agreeBelow n0 β β' → Base β → Base β')
    (hP : ∀ β β', agreeBelow n0 β β' → (P β ↔ P β'))
    (hA : ∀ β β', agreeBelow n0 β β' → (A β ↔ A β')) (hB : ∀ β β', agreeBelow n0 β β' → (B β ↔ B β'))
    (h : Emits τ log0 Base (n0 + 2) (c n0 (n0 + 1)) (fun β => P β ∧ (litTrue β n0 ↔ A β) ∧ (litTrue β (n0 + 1) ↔ B β)))
    {s : BState} (hl : s.log = log0) (hn : s.nextLit = n0) :
    Defines τ Base n0 s (do let a ← addLiteral; let b ← addLiteral; c a b) P := by
  intro b s' hc
  obtain ⟨a1, s1, k1, hc⟩ := bindS_ok hc
  simp only [addLiteral, Except.ok.injEq, Prod.mk.injEq] at k1
  obtain ⟨rfl, rfl⟩ := k1
  obtain ⟨a2, s2, k2, hc⟩ := bindS_ok hc
  simp only [addLiteral, Except.ok.injEq, Prod.mk.injEq] at k2
  obtain ⟨rfl, rfl⟩ := k2
  simp only [hn] at hc
  obtain ⟨new, e1, l1, f1⟩ := h _ b s' [] (by simp [hl]) (by simp; omega) hc
  refine ⟨new, 2, fun β i => if i = 0 then A β else B β, ?_, by simpa using l1, ?_, fun β hb => ?_⟩
  · rw [e1]; simp; omega
  · intro β β' hb i
    dsimp only
    split_ifs
    · exact hA β β' hb
    · exact hB β β' hb
  · have := f1 β hb (by simp)
    have h2 : (∀ i < 2, litTrue β (n0 + (i : Nat)) ↔ if i = 0 then A β else B β) ↔
        (litTrue β n0 ↔ A β) ∧ (litTrue β (n0 + 1) ↔ B β) := by
      constructor
      · intro h
        have a := h 0 (by omega)
        have b := h 1 (by omega)
        simp only [if_true, Nat.cast_zero, add_zero, one_ne_zero, if_false, Nat.cast_one] at a b
        exact ⟨a, b⟩
      · rintro ⟨a, b⟩ i hi
        have : i = 0 ∨ i = 1 := by omega
        rcases this with rfl | rfl
        · simpa using a
        · simpa using b
    rw [h2]
    refine ⟨this.1, fun hb' hPβ => ?_⟩
    obtain ⟨β', g1, g2⟩ := extend hpos β (fun i => if i = 0 then A β else B β)
    have g3 := g2 0
    have g4 := g2 1
    simp only [if_true, Nat.cast_zero, add_zero, one_ne_zero, if_false, Nat.cast_one] at g3 g4
    refine (f1 β' (hloc _ _ g1 hb) (by simp)).2 hb' ⟨(hP _ _ g1).1 hPβ, ?_, ?_⟩
    · rw [g3]; exact hA _ _ g1
    · rw [g4]; exact hB _ _ g1

theorem defines_isTrue {l : Int} {c1 c2 : BM Bool} {P1 P2 : (Nat → Bool) → Prop} {s : BState} (ho : Oracle env τ log0 n0 Base)
    (hl : s.log = log0) (h1 : Defines τ Base n0 s c1 P1) (h2 : Defines τ Base n0 s c2 P2)
    (hq : ∀ β, Base β → litTrue β l → (P1 β ↔ P2 β)) :
    Defines τ Base n0 s (do if ← isTrue env l then c1 else c2) P2 := by
  intro b s' hc
  obtain ⟨t, s1, k1, hc⟩ := bindS_ok hc
  simp only [isTrue, Except.ok.injEq, Prod.mk.injEq] at k1
  obtain ⟨rfl, rfl⟩ := k1
  cases ht : env.isTrue s.log l with
  | false =>
    rw [ht] at hc
    simp only [Bool.false_eq_true, if_false] at hc
    exact h2 _ _ hc
  | true =>
    rw [ht] at hc
    simp only [if_true] at hc
    have := defines_congr h1 (P' := P2)
      (fun β hb => hq β hb (ho.sound [] l β (by simpa [← hl] using ht) hb (by simp)))
    exact this _ _ hc

theorem defines_lift {α : Type} {r : Res α} {c : α → BM Bool} {P : (Nat → Bool) → Prop} {s : BState}
    (h : ∀ a, r = .ok a → Defines τ Base n0 s (c a) P) : Defines τ Base n0 s (do let a ← liftM r; c a) P := by
  intro b s' hc
  obtain ⟨a, k, hc⟩ := liftBind_ok hc
  exact h a k b s' hc

include ho in
theorem defines_eq (ha : AddOK env τ den add vars) {lit : Int} (hlit : lit ≠ 0) (hn : |lit| < n0) {elems : List (Int × V)}
    {rhs : Int} {strict : Bool} (hv : elems.map Prod.snd = vars) {s : BState} (hl : s.log = log0) (hnx : s.nextLit = n0) :
    Defines τ Base n0 s (normalizeEq env add lit elems rhs strict)
      (fun β => attached β lit strict (wsum den elems = rhs)) := by
  have hpos := ho.pos
  unfold normalizeEq
  cases strict with
  | false =>
    simp only [Bool.false_eq_true, if_false]
    refine defines_of_emits (emits_congr (emits_both ho ha hlit hlit hn hn hv) ?_) hl hnx
    intro β _
    simp only [attached, Bool.false_eq_true, if_false]
    constructor
    · intro h h'; have := h.1 h'; have := h.2 h'; omega
    · intro h; exact ⟨fun h' => (h h').le, fun h' => (h h').ge⟩
  | true =>
    simp only [if_true]
    refine defines_isTrue ho hl (defines_of_emits (emits_eqLits ho ha hlit hn (by decide) (by decide) ?_ ?_ hv) hl hnx)
      (defines_two (by omega) ho.loc (fun β β' h => by simp only [attached, litTrue_congr h hn])
        (A := fun _ => wsum den elems ≤ rhs) (B := fun _ => wsum den elems ≥ rhs) (by simp) (by simp) ?_ hl hnx) ?_
    · exact hpos
    · exact hpos
    · refine emits_congr (emits_eqLits ho ha hlit (by omega) (by omega) (by omega) ?_ ?_ hv) ?_
      · rw [abs_of_pos (by omega)]; omega
      · rw [abs_of_pos (by omega)]; omega
      · intro β _; simp [attached]
    · intro β hb h
      have ht := ho.tt β hb
      simp only [attached, if_true, TRUE_LIT, ht, h, true_iff]
      constructor
      · exact fun h => h.1
      · exact fun h => ⟨h, h.le, h.ge⟩

include ho in
theorem defines_ne (ha : AddOK env τ den add vars) {lit : Int} (hlit : lit ≠ 0) (hn : |lit| < n0) {elems : List (Int × V)}
    {rhs : Int} {strict : Bool} (hv : elems.map Prod.snd = vars) {s : BState} (hl : s.log = log0) (hnx : s.nextLit = n0) :
    Defines τ Base n0 s (normalizeNe env add lit elems rhs strict)
      (fun β => attached β lit strict (wsum den elems ≠ rhs)) := by
  have hpos := ho.pos
  unfold normalizeNe
  cases strict with
  | true =>
    simp only [if_true]
    refine defines_congr (defines_eq ho ha (by simpa using hlit) (by rwa [abs_neg]) hv hl hnx) ?_
    intro β _
    simp only [attached, if_true, litTrue_neg β lit hlit]
    tauto
  | false =>
    simp only [Bool.false_eq_true, if_false]
    refine defines_two (by omega) ho.loc (fun β β' h => by simp only [attached, litTrue_congr h hn]) (A := fun β => litTrue β lit ∧ wsum den elems < rhs)
      (B := fun β => litTrue β lit ∧ wsum den elems > rhs) ?_ ?_ ?_ hl hnx
    · intro β β' h; rw [litTrue_congr h hn]
    · intro β β' h; rw [litTrue_congr h hn]
    · refine emits_congr (emits_neLits ho ha hlit (by omega) (by omega) (by omega) ?_ ?_ hv) ?_
      · rw [abs_of_pos (by omega)]; omega
      · rw [abs_of_pos (by omega)]; omega
      · intro β _; simp [attached]

include ho in
theorem defines_normalize (elems : List (Int × V)) (ha : AddOK env τ den add (elems.map Prod.snd)) {lit : Int} (hlit : lit ≠ 0)
    (hn : |lit| < n0) {op : Rel} {rhs : Int} {strict : Bool} {s : BState} (hl : s.log = log0) (hnx : s.nextLit = n0) :
    Defines τ Base n0 s (normalize env add lit elems op rhs strict)
      (fun β => attached β lit strict (relHolds op (wsum den elems) rhs)) := by
  unfold normalize
  refine defines_lift fun r hr => ?_
  obtain ⟨e', op', rhs'⟩ := r
  obtain ⟨i1, i2, i3⟩ := rewriteRel_spec hr
  have i3 := i3 den
  rcases i2 with rfl | ⟨rfl, rfl⟩ | ⟨rfl, rfl⟩
  · refine defines_congr (defines_of_emits (emits_le ho ha hlit hn i1) hl hnx) ?_
    intro β _; rw [← i3]; rfl
  · refine defines_congr (defines_eq ho ha hlit hn i1 hl hnx) ?_
    intro β _; rw [← i3]; rfl
  · refine defines_congr (defines_ne ho ha hlit hn i1 hl hnx) ?_
    intro β _; rw [← i3]; rfl


theorem captures_of_defines (ho : Oracle env τ log0 n0 Base) {c : BM Bool} {P : (Nat → Bool) → Prop} {s : BState}
    (h : Defines τ Base n0 s c P) (hn : s.nextLit = n0) (hP : ∀ β β', agreeBelow n0 β β' → (P β ↔ P β'))
    {b : Bool} {s' : BState} (hc : c s = .ok (b, s')) :
    ∃ new, s' = { s with log := s.log ++ new, nextLit := s'.nextLit } ∧ Captures τ Base s.nextLit s'.nextLit new b P := by
  obtain ⟨new, k, δ, h1, h2, h3, h4⟩ := h b s' hc
  have hpos := ho.pos
  have hn' : s'.nextLit = n0 + k := by rw [h1]
  refine ⟨new, by rw [hn']; exact h1, ?_⟩
  rw [hn', hn]
  constructor
  · omega
  · intro β hb hp
    obtain ⟨β', g1, g2⟩ := extend (n0 := n0) (by omega) β (δ β)
    refine ⟨β', g1, (h4 β' (ho.loc _ _ g1 hb)).1.1 ⟨(hP _ _ g1).1 hp, fun i _ => ?_⟩⟩
    rw [g2 i]; exact h3 _ _ g1 i
  · intro β hb he
    exact ((h4 β hb).1.2 he).1
  · intro β β' hb ha he he' j hj
    by_cases hlt : (j : Int) < n0
    · exact ha j hlt
    · have e1 := ((h4 β hb).1.2 he).2 (j - n0.toNat) (by omega)
      have e2 := ((h4 β' (ho.loc _ _ ha hb)).1.2 he').2 (j - n0.toNat) (by omega)
      rw [h3 _ _ ha, ← e2] at e1
      unfold litTrue at e1
      rw [if_pos (by omega), if_pos (by omega)] at e1
      have : (n0 + ((j - n0.toNat : Nat) : Int)).natAbs = j := by omega
      rw [this] at e1
      exact Bool.eq_iff_iff.2 e1
  · exact h2
  · intro hb β hB
    exact (h4 β hB).2 hb

theorem invAll_total {elems : List (Int × V)} (he : ∀ t ∈ elems, |t.1| < 2 ^ 30) :
    ∃ r, invAll elems = .ok r ∧ ∀ t ∈ r, |t.1| < 2 ^ 30 := by
  induction elems with
  | nil => exact ⟨[], rfl, by simp⟩
  | cons t ts ih =>
    obtain ⟨r, hr, hr'⟩ := ih (fun t ht => he t (List.mem_cons_of_mem _ ht))
    have ht := he t List.mem_cons_self
    rw [abs_lt] at ht
    have : safeInv .val t.1 = .ok (-t.1) := safeInv_fits val_two (by rw [val_fits]; omega) (by rw [val_fits]; omega)
    refine ⟨(-t.1, t.2) :: r, ?_, ?_⟩
    · simp only [invAll, this, hr]; rfl
    · intro u hu
      rcases List.mem_cons.1 hu with rfl | hu
      · rw [abs_neg, abs_lt]; omega
      · exact hr' u hu

theorem rewriteRel_total {elems : List (Int × V)} {op : Rel} {rhs : Int} (hr : |rhs| ≤ 2 ^ 30)
    (he : ∀ t ∈ elems, |t.1| < 2 ^ 30) :
    ∃ r, rewriteRel elems op rhs = .ok r ∧ |r.2.2| ≤ |rhs| + 1 ∧ ∀ t ∈ r.1, |t.1| < 2 ^ 30 := by
  obtain ⟨inv, hi, hi'⟩ := invAll_total he
  have hr' := abs_le.1 hr
  have h1 : safeAdd .val rhs 1 = .ok (rhs + 1) := safeAdd_fits val_two (by rw [val_fits]; omega) (by rw [val_fits]; omega) (by rw [val_fits]; omega)
  have h2 : safeSub .val rhs 1 = .ok (rhs - 1) := safeSub_fits val_two (by rw [val_fits]; omega) (by rw [val_fits]; omega) (by rw [val_fits]; omega)
  have h3 : safeInv .val rhs = .ok (-rhs) := safeInv_fits val_two (by rw [val_fits]; omega) (by rw [val_fits]; omega)
  have h4 : safeInv .val (rhs + 1) = .ok (-(rhs + 1)) := safeInv_fits val_two (by rw [val_fits]; omega) (by rw [val_fits]; omega)
  have g1 := abs_add_le rhs 1
  have g2 := abs_sub rhs 1
  simp only [abs_one] at g1 g2
  cases op with
  | gt =>
    refine ⟨(inv, .le, -(rhs + 1)), ?_, ?_, hi'⟩
    · simp only [rewriteRel, h1, h4, hi, bind, Except.bind]; rfl
    · simp only [abs_neg]; omega
  | ge =>
    refine ⟨(inv, .le, -rhs), ?_, ?_, hi'⟩
    · simp only [rewriteRel, h3, hi, bind, Except.bind]; rfl
    · simp only [abs_neg]; omega
  | lt =>
    refine ⟨(elems, .le, rhs - 1), ?_, ?_, he⟩
    · simp only [rewriteRel, h2, bind, Except.bind]; rfl
    · omega
  | le => exact ⟨(elems, .le, rhs), rfl, by simp, he⟩
  | eq => exact ⟨(elems, .eq, rhs), rfl, by simp, he⟩
  | ne => exact ⟨(elems, .ne, rhs), rfl, by simp, he⟩

/-- A computation that never fails. -/
def NoFail (c : BM Bool) : Prop := ∀ s, ∃ r, c s = .ok r

theorem nofail_andThen {c1 c2 : BM Bool} (h1 : NoFail c1) (h2 : NoFail c2) : NoFail (andThen c1 c2) := by
  intro s
  obtain ⟨⟨b, s1⟩, k1⟩ := h1 s
  obtain ⟨r2, k2⟩ := h2 s1
  unfold andThen
  cases b
  · exact ⟨(false, s1), by simp [bind, StateT.bind, k1, Except.bind, pure, StateT.pure, Except.pure]⟩
  · exact ⟨r2, by simp [bind, StateT.bind, k1, Except.bind, k2]⟩

theorem nofail_post {e : Event} : NoFail (post env e) := fun _ => ⟨_, rfl⟩
theorem nofail_add {lit : Int} {elems : CoVarVec} {rhs : Int} {strict : Bool} : NoFail (addLinear env lit elems rhs strict) :=
  fun _ => ⟨_, rfl⟩

theorem nofail_isTrue {l : Int} {c1 c2 : BM Bool} (h1 : NoFail c1) (h2 : NoFail c2) :
    NoFail (do if ← isTrue env l then c1 else c2) := by
  intro s
  cases h : env.isTrue s.log l
  · obtain ⟨r, hr⟩ := h2 s
    exact ⟨r, by simp [bind, StateT.bind, isTrue, Except.bind, h, hr]⟩
  · obtain ⟨r, hr⟩ := h1 s
    exact ⟨r, by simp [bind, StateT.bind, isTrue, Except.bind, h, hr]⟩

theorem nofail_lift {α : Type} {x : Res α} {a : α} (hx : x = .ok a) {c : α → BM Bool} (h : NoFail (c a)) :
    NoFail (do let a ← liftM x; c a) := by
  intro s
  obtain ⟨r, hr⟩ := h s
  subst hx
  exact ⟨r, hr⟩

theorem nofail_two {c : Int → Int → BM Bool} (h : ∀ a b, NoFail (c a b)) :
    NoFail (do let a ← addLiteral; let b ← addLiteral; c a b) := by
  intro s
  obtain ⟨r, hr⟩ := h s.nextLit (s.nextLit + 1) { s with nextLit := s.nextLit + 1 + 1 }
  exact ⟨r, hr⟩

section
variable {elems : CoVarVec} {rhs : Int} (hr : |rhs| < 2 ^ 30) (he : ∀ t ∈ elems, |t.1| < 2 ^ 30)

theorem nofail_le1 {lit : Int} : NoFail (normalizeLe1 env (addLinear env) lit elems rhs) :=
  nofail_isTrue (fun _ => ⟨_, rfl⟩) nofail_add

include he in
theorem nofail_le (hr : |rhs| ≤ 2 ^ 30) {lit : Int} {strict : Bool} : NoFail (normalizeLe env (addLinear env) lit elems rhs strict) := by
  unfold normalizeLe
  split_ifs
  · exact nofail_add
  · obtain ⟨r, hr', -⟩ := rewriteRel_total (op := .gt) hr he
    exact nofail_andThen nofail_le1 (nofail_lift hr' nofail_le1)
  · exact nofail_le1

include hr he in
theorem nofail_rel (op : Rel) {lit : Int} {strict : Bool} : NoFail (do
    let r ← liftM (rewriteRel elems op rhs)
    normalizeLe env (addLinear env) lit r.1 r.2.2 strict) := by
  obtain ⟨r, h1, h2, h3⟩ := rewriteRel_total (op := op) hr.le he
  exact nofail_lift h1 (nofail_le h3 (by omega))

include hr he in
theorem nofail_both {a b : Int} {strict : Bool} : NoFail (normalizeBoth env (addLinear env) a b elems rhs strict) :=
  nofail_andThen (nofail_le he hr.le) (nofail_rel hr he .ge)

include hr he in
theorem nofail_eq {lit : Int} {strict : Bool} : NoFail (normalizeEq env (addLinear env) lit elems rhs strict) := by
  have h : ∀ a b, NoFail (normalizeEqLits env (addLinear env) lit a b elems rhs) := fun a b =>
    nofail_andThen nofail_post <| nofail_andThen nofail_post <| nofail_andThen nofail_post <| nofail_both hr he
  unfold normalizeEq
  cases strict
  · exact nofail_both hr he
  · exact nofail_isTrue (h _ _) (nofail_two h)

include hr he in
theorem nofail_ne {lit : Int} {strict : Bool} : NoFail (normalizeNe env (addLinear env) lit elems rhs strict) := by
  have h : ∀ a b, NoFail (normalizeNeLits env (addLinear env) lit a b elems rhs) := fun a b =>
    nofail_andThen nofail_post <| nofail_andThen nofail_post <| nofail_andThen nofail_post <| nofail_andThen nofail_post <|
    nofail_andThen (nofail_rel hr he .lt) (nofail_rel hr he .gt)
  unfold normalizeNe
  cases strict
  · exact nofail_two h
  · simp only [if_true]; exact nofail_eq hr he

theorem normalize_total (env : BEnv) (lit : Int) (elems : CoVarVec) (op : Rel) (rhs : Int) (strict : Bool) (s : BState)
    (hr : |rhs| < 2 ^ 30) (he : ∀ t ∈ elems, |t.1| < 2 ^ 30) :
    ∃ r, normalize env (addLinear env) lit elems op rhs strict s = .ok r := by
  obtain ⟨r, h1, h2, h3⟩ := rewriteRel_total (op := op) hr.le he
  have : NoFail (normalize env (addLinear env) lit elems op rhs strict) := by
    unfold normalize
    refine nofail_lift h1 ?_
    obtain ⟨e', op', rhs'⟩ := r
    obtain ⟨-, i2, -⟩ := rewriteRel_spec h1
    rcases i2 with rfl | ⟨rfl, rfl⟩ | ⟨rfl, rfl⟩
    · exact nofail_le h3 (by omega)
    · have := pure_ok h1
      simp only [Prod.mk.injEq] at this
      obtain ⟨rfl, -, rfl⟩ := this
      exact nofail_eq hr he
    · have := pure_ok h1
      simp only [Prod.mk.injEq] at this
      obtain ⟨rfl, -, rfl⟩ := this
      exact nofail_ne hr he
  exact this s
end
end

end Clingcon
