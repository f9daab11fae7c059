import Verif.Proof.Sum

/-! Propagation of linear constraints detects violated constraints and derives bounds. -/
set_option linter.unusedSimpArgs false
namespace Clingcon
open Spec VarState

variable {β : Nat → Bool} {σ : Nat → Int} {F : List VarState × Book} {m : Bool} {W W' : World} {cc : CC}

/-- What is false stays false. -/
theorem Grow.isFalse (hv : EnvMono cc) (h : Grow m W W') {l : Int} (hl : cc.isFalse W.log l = true) : cc.isFalse W'.log l = true := by
  obtain ⟨⟨new, e⟩, -⟩ := h
  rw [e]
  clear e
  induction new with
  | nil => exact hl
  | cons e new ih => exact hv.isFalse ih

theorem Grow.isTrue (hv : EnvMono cc) (h : Grow m W W') {l : Int} (hl : cc.isTrue W.log l = true) : cc.isTrue W'.log l = true := by
  obtain ⟨⟨new, e⟩, -⟩ := h
  rw [e]
  clear e
  induction new with
  | nil => exact hl
  | cons e new ih => exact hv.isTrue ih

/-- The last call was a clause that was refused. -/
def Refused (cc : CC) (W : World) : Prop := ∃ c log, W.log = .clause c :: log ∧ cc.accept W.log = false

theorem refineLower_ref {var : Nat} {co slack lr cur value : Int} {p : Bool × Int × Int × Int}
    (h : refineLower cc var co slack lr cur value W = .ok (p, W')) : p.1 = true ∨ (p.1 = false ∧ Refused cc W') := by
  unfold refineLower at h
  obtain ⟨vs, W1, h1, hh⟩ := SM.bind_ok h; clear h; have h := hh; clear hh
  cases ho : vs.orderLitGe (value - 1) <;> rw [ho] at h
  rotate_left
  · simp only [smok] at h
    rcases h with ⟨_, _, _, ⟨-, rfl⟩, hx⟩ | ⟨-, rfl, -⟩
    · obtain ⟨b, W3, -, h⟩ := hx
      rcases h with ⟨-, rfl, -⟩ | ⟨-, h⟩
      · exact .inl rfl
      · obtain ⟨b2, W4, h4, -, W5, h5, r, W6, ⟨h6, rfl⟩, rfl, rfl⟩ := h
        cases r with
        | true => exact .inl rfl
        | false => exact .inr ⟨rfl, _, _, rfl, h6.symm⟩
    · exact .inl rfl
  · simp only [smok] at h
    obtain ⟨rfl, -⟩ := h
    exact .inl rfl

theorem refineUpper_ref {var : Nat} {co slack lr cur value : Int} {p : Bool × Int × Int × Int}
    (h : refineUpper cc var co slack lr cur value W = .ok (p, W')) : p.1 = true ∨ (p.1 = false ∧ Refused cc W') := by
  unfold refineUpper at h
  obtain ⟨vs, W1, h1, hh⟩ := SM.bind_ok h; clear h; have h := hh; clear hh
  cases ho : vs.orderLitLe value <;> rw [ho] at h
  rotate_left
  · simp only [smok] at h
    rcases h with ⟨_, _, _, ⟨-, rfl⟩, hx⟩ | ⟨-, rfl, -⟩
    · obtain ⟨b, W3, -, h⟩ := hx
      rcases h with ⟨-, rfl, -⟩ | ⟨-, h⟩
      · exact .inl rfl
      · obtain ⟨b2, W4, h4, -, W5, h5, r, W6, ⟨h6, rfl⟩, rfl, rfl⟩ := h
        cases r with
        | true => exact .inl rfl
        | false => exact .inr ⟨rfl, _, _, rfl, h6.symm⟩
    · exact .inl rfl
  · simp only [smok] at h
    obtain ⟨rfl, -⟩ := h
    exact .inl rfl

theorem introduceLower_ref {var : Nat} {co value : Int} {p : Bool × Int × Int × Int} {q : Bool × Int × Int}
    (h : introduceLower cc var co value p W = .ok (q, W')) (hp : p.1 = true ∨ (p.1 = false ∧ Refused cc W)) : q.1 = true ∨ (q.1 = false ∧ Refused cc W') := by
  unfold introduceLower at h
  simp only [smok] at h
  obtain ⟨ll, W1, ⟨rfl, rfl⟩, h⟩ := h
  rcases h with ⟨hc, -, W2, ⟨-, rfl⟩, l, W3, -, b, W4, ⟨-, rfl⟩, -, W5, ⟨-, rfl⟩, b2, W6, ⟨-, rfl⟩, h⟩ | ⟨-, rfl, rfl⟩
  · rcases h with ⟨-, rfl, -⟩ | ⟨-, r, W6, ⟨h6, rfl⟩, rfl, rfl⟩
    · exact .inl rfl
    · cases r with
      | true => exact .inl rfl
      | false => exact .inr ⟨rfl, _, _, rfl, h6.symm⟩
  · exact hp

theorem introduceUpper_ref {var : Nat} {co value : Int} {p : Bool × Int × Int × Int} {q : Bool × Int × Int}
    (h : introduceUpper cc var co value p W = .ok (q, W')) (hp : p.1 = true ∨ (p.1 = false ∧ Refused cc W)) : q.1 = true ∨ (q.1 = false ∧ Refused cc W') := by
  unfold introduceUpper at h
  simp only [smok] at h
  obtain ⟨ll, W1, ⟨rfl, rfl⟩, h⟩ := h
  rcases h with ⟨hc, -, W2, ⟨-, rfl⟩, l, W3, -, b, W4, ⟨-, rfl⟩, -, W5, ⟨-, rfl⟩, b2, W6, ⟨-, rfl⟩, h⟩ | ⟨-, rfl, rfl⟩
  · rcases h with ⟨-, rfl, -⟩ | ⟨-, r, W6, ⟨h6, rfl⟩, rfl, rfl⟩
    · exact .inl rfl
    · cases r with
      | true => exact .inl rfl
      | false => exact .inr ⟨rfl, _, _, rfl, h6.symm⟩
  · exact hp

theorem calculateReason_ref {var : Nat} {co slack : Int} {p : Bool × Int × Int}
    (h : calculateReason cc var co slack W = .ok (p, W')) : (p.1 = true ∧ cc.isFalse W'.log p.2.1 = true) ∨ (p.1 = false ∧ Refused cc W') := by
  unfold calculateReason at h
  obtain ⟨q, W1, h1, hh⟩ := SM.bind_ok h; clear h; have h := hh; clear hh
  simp only [smok] at h
  obtain ⟨f, W2, ⟨rfl, rfl⟩, -, W3, ⟨h3, rfl⟩, rfl, rfl⟩ := h
  have key : p.1 = true ∨ (p.1 = false ∧ Refused cc W') := by
    split_ifs at h1
    · unfold reasonLower at h1
      simp only [smok] at h1
      obtain ⟨vs, W4, -, l, W5, -, b, W6, -, -, W7, ⟨-, rfl⟩, h⟩ := h1
      rcases h with ⟨-, q, W8, h8, h9⟩ | ⟨-, rfl, -⟩
      · exact introduceLower_ref h9 (refineLower_ref h8)
      · exact .inl rfl
    · unfold reasonUpper at h1
      simp only [smok] at h1
      obtain ⟨vs, W4, -, l, W5, -, b, W6, -, -, W7, ⟨-, rfl⟩, h⟩ := h1
      rcases h with ⟨-, q, W8, h8, h9⟩ | ⟨-, rfl, -⟩
      · exact introduceUpper_ref h9 (refineUpper_ref h8)
      · exact .inl rfl
  rcases key with hp | hp
  · left; rw [hp] at h3; exact ⟨hp, by simpa using h3⟩
  · exact .inr hp

/-- Reasons consist of false literals; otherwise a clause was refused. -/
theorem sumReason_ref (hv : EnvMono cc) {skip : Option Nat} {es : List (Int × Nat)} : ∀ {slack : Int} {reason : List Int} {r : Option (List Int)} {W W' : World},
    sumReason cc skip es slack reason W = .ok (r, W') → (∀ l ∈ reason, cc.isFalse W.log l = true) →
      (∃ r', r = some r' ∧ ∀ l ∈ r', cc.isFalse W'.log l = true) ∨ (r = none ∧ Refused cc W') := by
  induction es with
  | nil =>
    intro slack reason r W W' h hr
    unfold sumReason at h
    obtain ⟨rfl, rfl⟩ := pure_iff.mp h
    exact .inl ⟨_, rfl, hr⟩
  | cons e es ih =>
    intro slack reason r W W' h hr
    obtain ⟨co, var⟩ := e
    unfold sumReason at h
    split_ifs at h
    · exact ih h hr
    · obtain ⟨p, W1, h1, hh⟩ := SM.bind_ok h; clear h; have h := hh; clear hh
      have g1 := ext_calculateReason.ext (m := true) _ _ _ h1
      rcases calculateReason_ref h1 with ⟨hp, hf⟩ | ⟨hp, hf⟩
      · rw [hp] at h
        simp only [Bool.not_true, Bool.false_eq_true, if_false] at h
        obtain ⟨r1, W2, h2, hh⟩ := SM.bind_ok h; clear h; have h := hh; clear hh
        unfold pushReason at h2
        simp only [smok] at h2
        obtain ⟨f, W3, ⟨rfl, rfl⟩, rfl, rfl⟩ := h2
        refine ih h (fun l hl => ?_)
        split_ifs at hl
        · exact g1.isFalse hv (hr l hl)
        · rcases List.mem_append.mp hl with hl | hl
          · exact g1.isFalse hv (hr l hl)
          · rw [List.mem_singleton.mp hl]; exact hf
      · rw [hp] at h
        simp only [Bool.not_false, if_true] at h
        obtain ⟨rfl, rfl⟩ := pure_iff.mp h
        exact .inr ⟨rfl, hf⟩

theorem sumBounds_same {es : List (Int × Nat)} {p : Int × Int} (h : sumBounds es W = .ok (p, W')) : W' = W := by
  induction es generalizing p W W' with
  | nil => exact (congrArg Prod.snd (Except.ok.inj h)).symm
  | cons e es ih =>
    obtain ⟨co, var⟩ := e
    unfold sumBounds at h
    simp only [smok] at h
    obtain ⟨vs, W1, ⟨h1, rfl⟩, p, W2, h2, h3⟩ := h
    have := ih h2
    subst this
    rcases h3 with h3 | h3 <;> exact h3.2.2

theorem sumCheckState_same {c : CState} {es : List (Int × Nat)} {u : Unit} (h : sumCheckState c es W = .ok (u, W')) : W' = W := by
  unfold sumCheckState at h
  simp only [smok] at h
  obtain ⟨p, W1, h1, h⟩ := h
  have := sumBounds_same h1
  subst this
  simp only [and_false, false_or] at h
  exact h.2.2.2.2

/-- The cases of propagating a linear constraint. -/
theorem sumPropagate_cases {n : Nat} {ck tagged : Bool} {clit rhs : Int} {es : List (Int × Nat)} {r : Bool}
    (h : sumPropagate cc n ck tagged clit rhs es W = .ok (r, W')) :
    ∃ c, W.book.cs[n]? = some c ∧ c.alive = true ∧ cc.isFalse W.log clit = false ∧
      ((c.upper ≤ rhs ∧ r = true ∧ ∃ u, markInactiveS n W = .ok (u, W')) ∨
       (rhs < c.upper ∧ rhs < c.lower ∧ ((r = false ∧ sumReason cc none es (rhs - c.lower) [] W = .ok (none, W')) ∨
          ∃ reason W1 u W2, sumReason cc none es (rhs - c.lower) [] W = .ok (some reason, W1) ∧ markInactiveS n W1 = .ok (u, W2) ∧
            addClauseT cc tagged (reason ++ [-clit]) W2 = .ok (r, W'))) ∨
       (rhs < c.upper ∧ c.lower ≤ rhs ∧ ((cc.isTrue W.log clit = false ∧ r = true ∧ W' = W) ∨
          (cc.isTrue W.log clit = true ∧ sumLoop cc tagged clit es (rhs - c.lower) es W = .ok (r, W'))))) := by
  unfold sumPropagate at h
  obtain ⟨c, W1, h1, hh⟩ := SM.bind_ok h; clear h; have h := hh; clear hh
  obtain ⟨⟨hc, ha⟩, rfl⟩ := getCS_iff.mp h1
  obtain ⟨u, W2, h2, hh⟩ := SM.bind_ok h; clear h; have h := hh; clear hh
  have e2 : W2 = W1 := by
    rcases whenS_iff.mp h2 with ⟨-, h2⟩ | ⟨-, h2⟩
    · exact sumCheckState_same h2
    · exact h2
  subst e2
  obtain ⟨f, W3, h3, hh⟩ := SM.bind_ok h; clear h; have h := hh; clear hh
  obtain ⟨rfl, rfl⟩ := qFalse_iff.mp h3
  obtain ⟨_, W4, h4, hh⟩ := SM.bind_ok h; clear h; have h := hh; clear hh
  obtain ⟨hf, rfl⟩ := assertS_iff.mp h4
  refine ⟨c, hc, ha, by simpa using hf, ?_⟩
  split_ifs at h with a b
  · obtain ⟨u, W5, h5, hh⟩ := SM.bind_ok h; clear h; have h := hh; clear hh
    obtain ⟨rfl, rfl⟩ := pure_iff.mp h
    exact .inl ⟨a, rfl, _, h5⟩
  · right; left
    refine ⟨by omega, by omega, ?_⟩
    obtain ⟨o, W5, h5, hh⟩ := SM.bind_ok h; clear h; have h := hh; clear hh
    cases o with
    | none =>
      obtain ⟨rfl, rfl⟩ := pure_iff.mp h
      exact .inl ⟨rfl, h5⟩
    | some reason =>
      obtain ⟨u, W6, h6, hh⟩ := SM.bind_ok h; clear h; have h := hh; clear hh
      exact .inr ⟨reason, W5, u, W6, h5, h6, h⟩
  · right; right
    refine ⟨by omega, by omega, ?_⟩
    obtain ⟨t, W5, h5, hh⟩ := SM.bind_ok h; clear h; have h := hh; clear hh
    obtain ⟨rfl, rfl⟩ := qTrue_iff.mp h5
    split_ifs at h with ht
    · obtain ⟨rfl, rfl⟩ := pure_iff.mp h
      exact .inl ⟨by simpa using ht, rfl, rfl⟩
    · exact .inr ⟨by simpa using ht, h⟩

/-- A truth assignment has the literals that are assigned. -/
structure Agrees (cc : CC) (β : Nat → Bool) (log : List SEv) : Prop where
  isTrue : ∀ l, cc.isTrue log l = true → litTrue β l
  isFalse : ∀ l, cc.isFalse log l = true → ¬ litTrue β l

theorem Grow.agrees (hv : EnvMono cc) (h : Grow m W W') (ha : Agrees cc β W'.log) : Agrees cc β W.log :=
  ⟨fun l hl => ha.isTrue l (h.isTrue hv hl), fun l hl => ha.isFalse l (h.isFalse hv hl)⟩

/-- Like `tr_updateLiteral` if pending facts are assumed to be true. -/
theorem tr_updateLiteralE {var : Nat} {value : Int} {truth : Option Bool} (tt : litTrue β 1) :
    Tr β σ true (InvF β σ F) (updateLiteral cc var value truth)
      (fun l W => InvF β σ F W ∧ l ≠ 0 ∧ (litTrue β l ↔ σ var ≤ value)) := by
  intro W l W' h
  refine ⟨ext_updateLiteral.ext _ _ _ h, ?_⟩
  rintro ⟨hi, hf⟩ hr
  by_cases ht : ∀ t, truth = some t → cc.level = 0 → (t = true ↔ σ var ≤ value)
  · exact (tr_updateLiteral (m := true) tt ht W l W' h).2 ⟨hi, hf⟩ hr
  have got : ∀ {W'}, GotLit W var value l W' → Respects β σ W'.log → InvF β σ F W' ∧ l ≠ 0 ∧ (litTrue β l ↔ σ var ≤ value) := by
    intro W' hg hr
    obtain ⟨a, b, c, d⟩ := hg.inv tt hi hr
    exact ⟨⟨a, b.trans hf⟩, c, d⟩
  rcases updateLiteral_eff hi.wf hi.good.pos h with ⟨h0, t, rfl, h1⟩ | h1
  · cases h1 with
    | got _ _ hg => exact got hg hr.1
    | fact vs vs' hv h1 h2 hn hs =>
      exfalso
      apply ht
      intro t' ht' _
      injection ht' with ht'
      subst ht'
      have := (hr.2 rfl).2 _ var value _ (List.mem_append_right _ (List.mem_singleton.mpr rfl))
      cases t with
      | true => simpa using this
      | false =>
        rw [if_neg (by decide)] at this
        simpa using this
  · exact got h1 hr.1

theorem addClauseT_log {tagged : Bool} {c : List Int} {b : Bool} (h : addClauseT cc tagged c W = .ok (b, W')) :
    ∃ e, W'.log = e :: W.log ∧ (e = .clause c ∨ e = .volatile c) ∧ b = cc.accept W'.log ∧ W'.book = W.book := by
  unfold addClauseT at h
  split_ifs at h
  · obtain ⟨rfl, rfl⟩ := addVolatile_iff.mp h
    exact ⟨_, rfl, .inr rfl, rfl, rfl⟩
  · obtain ⟨rfl, rfl⟩ := addClause_iff.mp h
    exact ⟨_, rfl, .inl rfl, rfl, rfl⟩

/-- What is posted when deriving a consequence implies the consequence under the assigned literals. -/
theorem sumDerive_enf {tagged : Bool} {clit slack value : Int} {es : List (Int × Nat)} {var : Nat} {neg r : Bool}
    (he : EnvSound cc β) (hv : EnvMono cc) (h : sumDerive cc tagged clit es var slack value neg W = .ok (r, W')) (hi : InvF β σ F W)
    (hc : clit ≠ 0) (ht : cc.isTrue W.log clit = true) (ha : Asm β σ true W') (hg : Agrees cc β W'.log) :
    InvF β σ F W' ∧ (r = true → (neg = false ↔ σ var ≤ value)) := by
  unfold sumDerive at h
  obtain ⟨_, W1, h1, hh⟩ := SM.bind_ok h; clear h; have h := hh; clear hh
  obtain ⟨-, rfl⟩ := assertS_iff.mp h1
  obtain ⟨r0, W2, h2, hh⟩ := SM.bind_ok h; clear h; have h := hh; clear hh
  unfold pushReason at h2
  simp only [smok] at h2
  obtain ⟨f, W3, ⟨rfl, rfl⟩, e0, rfl⟩ := h2
  have hr0 : ∀ l ∈ r0, cc.isFalse W2.log l = true := by
    intro l hl
    rw [e0] at hl
    split_ifs at hl
    · cases hl
    · rw [List.nil_append, List.mem_singleton] at hl
      rw [hl, isFalse_neg hc]; exact ht
  obtain ⟨o, W4, h4, hh⟩ := SM.bind_ok h; clear h; have h := hh; clear hh
  have k4 := tr_sumReason (m := true) (σ := σ) (F := F) he _ _ _ h4
  rcases sumReason_ref hv h4 hr0 with ⟨r1, rfl, hr1⟩ | ⟨rfl, -⟩
  · obtain ⟨l, W5, h5, hh⟩ := SM.bind_ok h; clear h; have h := hh; clear hh
    obtain ⟨b, W6, h6, hh⟩ := SM.bind_ok h; clear h; have h := hh; clear hh
    have k5 := tr_updateLiteralE (σ := σ) (F := F) he.tt _ _ _ h5
    have k6 := tr_clauseT (β := β) (σ := σ) (F := F) (m := true) (by simp) _ _ _ h6
    have k7 : W' = W6 ∧ (r = true → b = true) := by
      cases b with
      | false =>
        obtain ⟨rfl, rfl⟩ := pure_iff.mp h
        exact ⟨rfl, by simp⟩
      | true =>
        obtain ⟨t, W7, h7, hh⟩ := SM.bind_ok h; clear h; have h := hh; clear hh
        obtain ⟨rfl, rfl⟩ := qTrue_iff.mp h7
        obtain ⟨_, W8, h8, hh⟩ := SM.bind_ok h; clear h; have h := hh; clear hh
        obtain ⟨-, rfl⟩ := assertS_iff.mp h8
        obtain ⟨rfl, rfl⟩ := pure_iff.mp h
        exact ⟨rfl, fun _ => rfl⟩
    obtain ⟨rfl, -⟩ := k7
    have a5 := k6.1.asm ha
    have a4 := k5.1.asm a5
    have i4 := (k4.2 hi a4).1
    obtain ⟨i5, hl0, hl⟩ := k5.2 i4 a5
    obtain ⟨i6, x, hx, hxt⟩ := k6.2 i5 ha
    refine ⟨i6, fun _ => ?_⟩
    have hx : x = if neg then -l else l := by
      rcases List.mem_append.mp hx with hx | hx
      · exact absurd hxt (hg.isFalse x ((k5.1.trans k6.1).isFalse hv (hr1 x hx)))
      · exact List.mem_singleton.mp hx
    subst hx
    cases neg with
    | false => simpa using hl.mp hxt
    | true =>
      rw [if_pos rfl] at hxt
      have := (litTrue_neg hl0).mp hxt
      simpa [hl] using this
  · obtain ⟨rfl, rfl⟩ := pure_iff.mp h
    exact ⟨(k4.2 hi ha).1, by simp⟩

theorem sumConsequence_enf {tagged : Bool} {clit slack value : Int} {es : List (Int × Nat)} {var : Nat} {neg r : Bool}
    (he : EnvSound cc β) (hv : EnvMono cc) (h : sumConsequence cc tagged clit es var slack value neg W = .ok (r, W')) (hi : InvF β σ F W)
    (hc : clit ≠ 0) (ht : cc.isTrue W.log clit = true) (ha : Asm β σ true W') (hg : Agrees cc β W'.log) :
    InvF β σ F W' ∧ (r = true → (neg = false ↔ σ var ≤ value)) := by
  unfold sumConsequence at h
  obtain ⟨o, W1, h1, hh⟩ := SM.bind_ok h; clear h; have h := hh; clear hh
  obtain ⟨b, W2, h2, hh⟩ := SM.bind_ok h; clear h; have h := hh; clear hh
  have k1 := tr_hasOrder (β := β) (σ := σ) (F := F) (m := true) he.tt _ _ _ h1
  have e2 : W2 = W1 ∧ (b = false → ∃ l, o = some l ∧ cc.isTrue W1.log l = true) := by
    unfold needReason at h2
    split at h2
    · obtain ⟨rfl, rfl⟩ := pure_iff.mp h2
      exact ⟨rfl, by simp⟩
    · rename_i l
      obtain ⟨t, W3, h3, h4⟩ := SM.bind_ok h2
      obtain ⟨rfl, rfl⟩ := qTrue_iff.mp h3
      obtain ⟨rfl, rfl⟩ := pure_iff.mp h4
      exact ⟨rfl, fun h => ⟨l, rfl, by simpa using h⟩⟩
  obtain ⟨rfl, e2⟩ := e2
  split_ifs at h with hb
  · have g := ext_sumDerive.ext (m := true) _ _ _ h
    exact sumDerive_enf he hv h (k1.2 hi (g.asm ha)) hc (k1.1.isTrue hv ht) ha hg
  · obtain ⟨rfl, rfl⟩ := pure_iff.mp h
    have i1 := k1.2 hi ha
    obtain ⟨l, rfl, hl0⟩ := e2 (by simpa using hb)
    refine ⟨i1, fun _ => ?_⟩
    have hlt := hg.isTrue l hl0
    clear hl0
    unfold hasOrder at h1
    simp only [smok] at h1
    obtain ⟨vs, W3, ⟨-, rfl⟩, b', W4, ⟨-, rfl⟩, h1⟩ := h1
    rcases h1 with ⟨-, l', W5, h5, e, rfl⟩ | ⟨-, e, -⟩
    · obtain ⟨-, hl0, hl⟩ := (tr_getLiteral (m := true) he.tt _ _ _ h5).2 hi ha
      injection e with e
      subst e
      cases neg with
      | false => simpa using hl.mp hlt
      | true =>
        rw [if_pos rfl] at hlt
        have := (litTrue_neg hl0).mp hlt
        simpa [hl] using this
    · cases e

/-- The bounds that are enforced for one variable: lower bounds always if they are within the bounds, upper
bounds except if they are just one below the current one. -/
def Enforced (σ : Nat → Int) (F : List VarState × Book) (slack co : Int) (v : Nat) : Prop :=
  (co > 0 → loF F v + slack / co + 1 < upF F v → σ v ≤ loF F v + slack / co) ∧
  (co < 0 → loF F v < upF F v - slack / (-co) → upF F v - slack / (-co) ≤ σ v)

theorem div_of_bounds {s c d : Int} (hc : 0 < c) (h1 : s - c * d < 0) (h2 : 0 ≤ s - c * (d - 1)) : s / c = d - 1 := by
  apply le_antisymm
  · have : s / c < d := Int.ediv_lt_of_lt_mul hc (by linarith [mul_comm c d])
    omega
  · exact (Int.le_ediv_iff_mul_le hc).mpr (by linarith [mul_comm c (d-1)])

theorem sumStep_enf {tagged : Bool} {clit slack co : Int} {es : List (Int × Nat)} {var : Nat} {r : Bool}
    (he : EnvSound cc β) (hv : EnvMono cc) (h : sumStep cc tagged clit es slack co var W = .ok (r, W')) (hi : InvF β σ F W)
    (hc : clit ≠ 0) (ht : cc.isTrue W.log clit = true) (ha : Asm β σ true W') (hg : Agrees cc β W'.log) :
    InvF β σ F W' ∧ (r = true → Enforced σ F slack co var) := by
  unfold sumStep at h
  obtain ⟨vs, W1, h1, hh⟩ := SM.bind_ok h; clear h; have h := hh; clear hh
  obtain ⟨hvs, rfl⟩ := getVar_iff.mp h1
  have hf : F.1[var]? = some vs.bounds := by
    rw [← hi.2]; unfold frame; simp [List.getElem?_map, hvs]
  have el : vs.lower = loF F var := by unfold loF; rw [hf]; rfl
  have eu : vs.upper = upF F var := by unfold upF; rw [hf]; rfl
  split_ifs at h with c
  · obtain ⟨_, W2, h2, hh⟩ := SM.bind_ok h; clear h; have h := hh; clear hh
    obtain ⟨hd, rfl⟩ := assertS_iff.mp h2
    simp only [Bool.and_eq_true, decide_eq_true_eq] at hd
    have hq := div_of_bounds c hd.1 hd.2
    rw [el, eu] at h
    split_ifs at h with hb
    · obtain ⟨rfl, rfl⟩ := pure_iff.mp h
      exact ⟨hi, fun _ => ⟨fun _ h => absurd h (by rw [hq]; omega), fun h => absurd h (by omega)⟩⟩
    · obtain ⟨i1, h2⟩ := sumConsequence_enf he hv h hi hc ht ha hg
      refine ⟨i1, fun hr => ⟨fun _ _ => ?_, fun h => absurd h (by omega)⟩⟩
      have := (h2 hr).mp rfl
      rw [hq]; omega
  · obtain ⟨_, W2, h2, hh⟩ := SM.bind_ok h; clear h; have h := hh; clear hh
    obtain ⟨hd, rfl⟩ := assertS_iff.mp h2
    simp only [Bool.and_eq_true, decide_eq_true_eq] at hd
    rw [el, eu] at h
    have hq : co < 0 → slack / (-co) = -(floordiv (slack + 1) co) - 1 := fun hco => by
      apply div_of_bounds (by omega)
      · have := hd.1; linarith [neg_mul_neg co (floordiv (slack + 1) co)]
      · have := hd.2
        have e : -co * (-(floordiv (slack + 1) co) - 1) = co * (floordiv (slack + 1) co + 1) := by ring
        rw [e]; exact this
    split_ifs at h with hb
    · obtain ⟨rfl, rfl⟩ := pure_iff.mp h
      refine ⟨hi, fun _ => ⟨fun h => absurd h c, fun hco h => absurd h ?_⟩⟩
      rw [hq hco]; omega
    · obtain ⟨i1, h2⟩ := sumConsequence_enf he hv h hi hc ht ha hg
      refine ⟨i1, fun hr => ⟨fun h => absurd h c, fun hco _ => ?_⟩⟩
      have := (h2 hr)
      have : ¬ σ var ≤ upF F var + floordiv (slack + 1) co := fun h' => by simpa using this.mpr h'
      rw [hq hco]; omega

theorem sumLoop_enf {tagged : Bool} {clit slack : Int} {es : List (Int × Nat)} (he : EnvSound cc β) (hv : EnvMono cc) (hc : clit ≠ 0) :
    ∀ {es' : List (Int × Nat)} {W W' : World} {r : Bool}, sumLoop cc tagged clit es slack es' W = .ok (r, W') → InvF β σ F W →
      cc.isTrue W.log clit = true → Asm β σ true W' → Agrees cc β W'.log → InvF β σ F W' ∧ (r = true → ∀ e ∈ es', Enforced σ F slack e.1 e.2) := by
  intro es'
  induction es' with
  | nil =>
    intro W W' r h hi _ _ _
    obtain ⟨rfl, rfl⟩ := pure_iff.mp h
    exact ⟨hi, fun _ => by simp⟩
  | cons e es' ih =>
    intro W W' r h hi ht ha hg
    obtain ⟨co, var⟩ := e
    unfold sumLoop at h
    obtain ⟨b, W1, h1, hh⟩ := SM.bind_ok h; clear h; have h := hh; clear hh
    split_ifs at h with hb
    · obtain ⟨rfl, rfl⟩ := pure_iff.mp h
      obtain ⟨i1, -⟩ := sumStep_enf he hv h1 hi hc ht ha hg
      exact ⟨i1, by simp⟩
    · have g1 := ext_sumStep.ext (m := true) _ _ _ h1
      have g2 := (ext_sumLoop (m := true)).ext _ _ _ h
      obtain ⟨i1, k1⟩ := sumStep_enf he hv h1 hi hc ht (g2.asm ha) (g2.agrees hv hg)
      obtain ⟨i2, k2⟩ := ih h i1 (g1.isTrue hv ht) ha hg
      refine ⟨i2, fun hr => ?_⟩
      intro e he'
      rcases List.mem_cons.mp he' with rfl | he'
      · exact k1 (by simpa using hb)
      · exact k2 hr e he'

end Clingcon
