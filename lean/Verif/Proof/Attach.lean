import Verif.Proof.Simple
import Verif.Proof.Util

/-! Attaching domains and constraints over a single variable: soundness (`m = false`) and completeness
(`m = true`). -/
set_option linter.unusedSimpArgs false

namespace Clingcon
open Spec VarState

variable {β : Nat → Bool} {σ : Nat → Int} {F : List VarState × Book} {m : Bool} {L : List Lvl} {α : Type} {W W' : World}

/-- A clause is valid (`m = false`) or assumed to hold (`m = true`). -/
theorem tr_clause {cc : CC} {c : List Int} (h : m = false → ∃ l ∈ c, litTrue β l) :
    Tr β σ m (InvF β σ F) (addClause cc c) (fun _ W => InvF β σ F W ∧ ∃ l ∈ c, litTrue β l) := by
  refine Tr.addClause (fun W b hW ha => ?_)
  have hc : ∃ l ∈ c, litTrue β l := by
    cases m with
    | false => exact h rfl
    | true => exact (ha.2 rfl).1 (.clause c) (by simp)
  exact ⟨hW.log hc, hc⟩

theorem tr_update {cc : CC} {var : Nat} {value : Int} {truth : Option Bool} (tt : litTrue β 1)
    (ht : m = false → ∀ t, truth = some t → cc.level = 0 → (t = true ↔ σ var ≤ value)) :
    Tr β σ m (InvF β σ F) (updateLiteral cc var value truth)
      (fun l W => InvF β σ F W ∧ l ≠ 0 ∧ (litTrue β l ↔ σ var ≤ value)) := by
  cases m with
  | false => exact tr_updateLiteral tt (ht rfl)
  | true =>
    intro W l W' h
    refine ⟨ext_updateLiteral.ext _ _ _ h, ?_⟩
    rintro hiF hr
    obtain ⟨hi, hf⟩ := hiF
    rcases updateLiteral_eff hi.wf hi.good.pos h with ⟨h0, t, rfl, h1⟩ | h1
    · have key : UpdLit W var value t l W' → (GotLit W var value l W' ∨ (t = true ↔ σ var ≤ value)) := by
        intro hu
        cases hu with
        | got _ _ hg => exact Or.inl hg
        | fact vs vs' hv h1 h2 hn hs =>
          right
          have hk := (hr.2 rfl).2 _ var value _ (List.mem_append_right _ (List.mem_singleton.mpr rfl))
          cases t with
          | true => simpa using hk
          | false => rw [if_neg (by decide)] at hk; simpa using hk
      rcases key h1 with hg | hk
      · obtain ⟨a, b, c, d⟩ := hg.inv tt hi hr.1
        exact ⟨⟨a, b.trans hf⟩, c, d⟩
      · exact (tr_updateLiteral (m := true) (cc := cc) (F := F) tt (truth := some t)
          (fun t' ht' _ => by injection ht' with ht'; subst ht'; exact hk) W l W' h).2 ⟨hi, hf⟩ hr
    · obtain ⟨a, b, c, d⟩ := h1.inv tt hi hr.1
      exact ⟨⟨a, b.trans hf⟩, c, d⟩

/-- Lower bounds of a domain. -/
def LowerOK (s : Int) : Option Int → List (Int × Int) → Prop
  | _, [] => True
  | py, (x, y) :: dom => ((∀ p, py = some p → p ≤ s) → x ≤ s) ∧ LowerOK s (some y) dom

/-- Upper bounds of a (reversed) domain. -/
def UpperOK (s : Int) : Option Int → List (Int × Int) → Prop
  | _, [] => True
  | px, (x, y) :: dom => ((∀ p, px = some p → s < p) → s < y) ∧ UpperOK s (some x) dom

theorem tr_prevTrue {cc : CC} {var : Nat} {py : Option Int} (tt : litTrue β 1) :
    Tr β σ m (InvF β σ F) (prevTrue cc var py)
      (fun l W => InvF β σ F W ∧ l ≠ 0 ∧ (litTrue β l ↔ ∀ p, py = some p → p ≤ σ var)) := by
  cases py with
  | none => exact Tr.pure (fun _ h => ⟨h, by decide, ⟨fun _ _ h => (by cases h), fun _ => tt⟩⟩)
  | some p =>
    unfold prevTrue
    refine Tr.bind (tr_getLiteral tt) (fun l => Tr.pure ?_)
    rintro W ⟨hW, hl, ht⟩
    refine ⟨hW, by omega, ?_⟩
    rw [litTrue_neg hl, ht]
    constructor
    · intro h q hq; injection hq with hq; omega
    · intro h; have := h p rfl; omega

theorem tr_succTrue {cc : CC} {var : Nat} {px : Option Int} (tt : litTrue β 1) :
    Tr β σ m (InvF β σ F) (succTrue cc var px)
      (fun l W => InvF β σ F W ∧ l ≠ 0 ∧ (litTrue β l ↔ ∀ p, px = some p → σ var < p)) := by
  cases px with
  | none => exact Tr.pure (fun _ h => ⟨h, by decide, ⟨fun _ _ h => (by cases h), fun _ => tt⟩⟩)
  | some p =>
    unfold succTrue
    refine Tr.post (tr_getLiteral tt) ?_
    rintro l W ⟨hW, hl, ht⟩
    refine ⟨hW, hl, ?_⟩
    rw [ht]
    constructor
    · intro h q hq; injection hq with hq; omega
    · intro h; have := h p rfl; omega

theorem tr_qTrueSound {cc : CC} {l : Int} (he : EnvSound cc β) (h0 : cc.level = 0) :
    Tr β σ m (InvF β σ F) (qTrue cc l) (fun b W => InvF β σ F W ∧ (b = true → litTrue β l)) := by
  intro W a W' hx
  obtain ⟨rfl, rfl⟩ := qTrue_iff.mp hx
  exact ⟨Grow.refl _ _, fun hP _ => ⟨hP, fun h1 => he.isTrue _ _ hP.1.good.posted h1 (Or.inr h0)⟩⟩

theorem tr_qFalseSound {cc : CC} {l : Int} (he : EnvSound cc β) (h0 : cc.level = 0) :
    Tr β σ m (InvF β σ F) (qFalse cc l) (fun b W => InvF β σ F W ∧ (b = true → ¬ litTrue β l)) := by
  intro W a W' hx
  obtain ⟨rfl, rfl⟩ := qFalse_iff.mp hx
  exact ⟨Grow.refl _ _, fun hP _ => ⟨hP, fun h1 => he.isFalse _ _ hP.1.good.posted h1 (Or.inr h0)⟩⟩

theorem tr_qValueSound {cc : CC} {l : Int} (he : EnvSound cc β) (h0 : cc.level = 0) :
    Tr β σ m (InvF β σ F) (qValue cc l) (fun o W => InvF β σ F W ∧ (∀ t, o = some t → (t = true ↔ litTrue β l)) ∧
      (cc.isFalse W.log l = true ↔ o = some false)) := by
  intro W a W' hx
  obtain ⟨rfl, rfl⟩ := qValue_iff.mp hx
  refine ⟨Grow.refl _ _, fun hP _ => ⟨hP, fun t ht => ?_, ?_⟩⟩
  · cases t with
    | true => simp; exact he.isTrue _ _ hP.1.good.posted (by unfold CC.isTrue; rw [ht]; rfl) (Or.inr h0)
    | false => simp; exact he.isFalse _ _ hP.1.good.posted (by unfold CC.isFalse; rw [ht]; rfl) (Or.inr h0)
  · unfold CC.isFalse; simp

theorem tr_addDomLower {cc : CC} {lit : Int} {var : Nat} (he : EnvSound cc β) (h0 : cc.level = 0) (hl0 : lit ≠ 0)
    {dom : List (Int × Int)} : ∀ {py : Option Int}, (m = false → litTrue β lit → LowerOK (σ var) py dom) →
    Tr β σ m (InvF β σ F) (addDomLower cc lit var py dom)
      (fun b W => InvF β σ F W ∧ (b = true → litTrue β lit → LowerOK (σ var) py dom)) := by
  induction dom with
  | nil => intro py _; exact Tr.pure (fun _ h => ⟨h, fun _ _ => trivial⟩)
  | cons d dom ih =>
    obtain ⟨x, y⟩ := d
    intro py hs
    unfold addDomLower
    refine Tr.bind (tr_prevTrue he.tt) (fun ly => ?_)
    refine Tr.assume (by ext_auto) ?_
    rintro ⟨hly0, hly⟩
    refine Tr.bind (tr_qTrueSound he h0) (fun t => ?_)
    refine Tr.assume (by ext_auto) (fun htl => ?_)
    refine Tr.bind (tr_update he.tt ?_) (fun lx => ?_)
    · intro hm t' ht' _
      split_ifs at ht' with hc
      injection ht' with ht'
      subst ht'
      have h1 : litTrue β lit := by rw [hc.1]; exact he.tt
      have h2 := (hs hm h1).1 (hly.mp (htl hc.2))
      simp; omega
    refine Tr.assume (by ext_auto) ?_
    rintro ⟨hlx0, hlx⟩
    refine Tr.bind (tr_clause ?_) (fun b => ?_)
    · intro hm
      by_cases c1 : litTrue β lit
      · by_cases c2 : litTrue β ly
        · refine ⟨-lx, by simp, (litTrue_neg hlx0).mpr ?_⟩
          have h2 := (hs hm c1).1 (hly.mp c2)
          rw [hlx]; omega
        · exact ⟨-ly, by simp, (litTrue_neg hly0).mpr c2⟩
      · exact ⟨-lit, by simp, (litTrue_neg hl0).mpr c1⟩
    refine Tr.assume (by ext_auto) (fun hcl => ?_)
    refine Tr.ite (fun _ => Tr.pure (fun _ h => ⟨h, fun h => by cases h⟩)) (fun _ => ?_)
    refine Tr.post (ih (py := some y) (fun hm hl => (hs hm hl).2)) ?_
    rintro b W ⟨hW, hb⟩
    refine ⟨hW, fun hb1 hl => ⟨fun hp => ?_, hb hb1 hl⟩⟩
    have c2 := hly.mpr hp
    simp only [List.mem_cons, List.not_mem_nil, or_false, exists_eq_or_imp, exists_eq_left,
      litTrue_neg hl0, litTrue_neg hly0, litTrue_neg hlx0, hlx] at hcl
    rcases hcl with h | h | h
    · exact absurd hl h
    · exact absurd c2 h
    · omega

theorem tr_addDomUpper {cc : CC} {lit : Int} {var : Nat} (he : EnvSound cc β) (h0 : cc.level = 0) (hl0 : lit ≠ 0)
    {dom : List (Int × Int)} : ∀ {px : Option Int}, (m = false → litTrue β lit → UpperOK (σ var) px dom) →
    Tr β σ m (InvF β σ F) (addDomUpper cc lit var px dom)
      (fun b W => InvF β σ F W ∧ (b = true → litTrue β lit → UpperOK (σ var) px dom)) := by
  induction dom with
  | nil => intro py _; exact Tr.pure (fun _ h => ⟨h, fun _ _ => trivial⟩)
  | cons d dom ih =>
    obtain ⟨x, y⟩ := d
    intro px hs
    unfold addDomUpper
    refine Tr.bind (tr_succTrue he.tt) (fun lx => ?_)
    refine Tr.assume (by ext_auto) ?_
    rintro ⟨hlx0, hlx⟩
    refine Tr.bind (tr_qTrueSound he h0) (fun t => ?_)
    refine Tr.assume (by ext_auto) (fun htl => ?_)
    refine Tr.bind (tr_update he.tt ?_) (fun ly => ?_)
    · intro hm t' ht' _
      split_ifs at ht' with hc
      injection ht' with ht'
      subst ht'
      have h1 : litTrue β lit := by rw [hc.1]; exact he.tt
      have h2 := (hs hm h1).1 (hlx.mp (htl hc.2))
      simp; omega
    refine Tr.assume (by ext_auto) ?_
    rintro ⟨hly0, hly⟩
    refine Tr.bind (tr_clause ?_) (fun b => ?_)
    · intro hm
      by_cases c1 : litTrue β lit
      · by_cases c2 : litTrue β lx
        · refine ⟨ly, by simp, ?_⟩
          have h2 := (hs hm c1).1 (hlx.mp c2)
          rw [hly]; omega
        · exact ⟨-lx, by simp, (litTrue_neg hlx0).mpr c2⟩
      · exact ⟨-lit, by simp, (litTrue_neg hl0).mpr c1⟩
    refine Tr.assume (by ext_auto) (fun hcl => ?_)
    refine Tr.ite (fun _ => Tr.pure (fun _ h => ⟨h, fun h => by cases h⟩)) (fun _ => ?_)
    refine Tr.post (ih (px := some x) (fun hm hl => (hs hm hl).2)) ?_
    rintro b W ⟨hW, hb⟩
    refine ⟨hW, fun hb1 hl => ⟨fun hp => ?_, hb hb1 hl⟩⟩
    have c2 := hlx.mpr hp
    simp only [List.mem_cons, List.not_mem_nil, or_false, exists_eq_or_imp, exists_eq_left,
      litTrue_neg hl0, litTrue_neg hlx0, hly] at hcl
    rcases hcl with h | h | h
    · exact absurd hl h
    · exact absurd c2 h
    · omega

theorem tr_addDom {cc : CC} {lit : Int} {var : Nat} (he : EnvSound cc β) (h0 : cc.level = 0) (hl0 : lit ≠ 0)
    {dom : List (Int × Int)}
    (hs : m = false → litTrue β lit → LowerOK (σ var) none dom ∧ UpperOK (σ var) none dom.reverse) :
    Tr β σ m (InvF β σ F) (addDom cc lit var dom) (fun b W => InvF β σ F W ∧
      (b = true → litTrue β lit → LowerOK (σ var) none dom ∧ UpperOK (σ var) none dom.reverse)) := by
  unfold addDom
  refine Tr.bind (tr_qFalseSound he h0) (fun f => ?_)
  refine Tr.assume (by ext_auto) (fun hf => ?_)
  refine Tr.ite (fun hc => Tr.pure (fun _ h => ⟨h, fun _ hl => absurd hl (hf hc)⟩)) (fun _ => ?_)
  refine Tr.bind (tr_qTrueSound he h0) (fun t => ?_)
  refine Tr.assume (by ext_auto) (fun ht => ?_)
  have heq : litTrue β (if t = true then TRUE_LIT else lit) ↔ litTrue β lit := by
    split_ifs with hc
    · exact ⟨fun _ => ht hc, fun _ => he.tt⟩
    · exact Iff.rfl
  have hne : (if t = true then TRUE_LIT else lit) ≠ 0 := by split_ifs; decide; exact hl0
  refine Tr.bind (tr_addDomLower he h0 hne (fun hm hl => (hs hm (heq.mp hl)).1)) (fun b => ?_)
  refine Tr.assume (by ext_auto) (fun hb => ?_)
  refine Tr.ite (fun _ => Tr.pure (fun _ h => ⟨h, fun h => by cases h⟩)) (fun hbb => ?_)
  refine Tr.post (tr_addDomUpper he h0 hne (fun hm hl => (hs hm (heq.mp hl)).2)) ?_
  rintro b' W ⟨hW, hb'⟩
  refine ⟨hW, fun h1 h2 => ⟨hb ?_ (heq.mpr h2), hb' h1 (heq.mpr h2)⟩⟩
  simpa using hbb


/-! ### Domains -/

/-- Non-empty intervals in increasing order. -/
def SortedDom (dom : List (Int × Int)) : Prop := (∀ i ∈ dom, i.1 < i.2) ∧ dom.Pairwise (fun a b => a.2 ≤ b.1)

theorem lowerOK_mem {s : Int} {dom : List (Int × Int)} : ∀ {py : Option Int}, SortedDom dom →
    (∀ p, py = some p → ∀ i ∈ dom, p ≤ i.1) → (∃ i ∈ dom, i.1 ≤ s ∧ s < i.2) → LowerOK s py dom := by
  induction dom with
  | nil => intro py _ _ _; trivial
  | cons d dom ih =>
    obtain ⟨x, y⟩ := d
    intro py hs hp hm
    obtain ⟨h1, h2⟩ := hs
    rw [List.pairwise_cons] at h2
    have hxy : x < y := h1 (x, y) (by simp)
    obtain ⟨i, hi, hi1, hi2⟩ := hm
    have hx : x ≤ s := by
      rcases List.mem_cons.mp hi with rfl | hi
      · exact hi1
      · have := h2.1 i hi; dsimp only at this; omega
    refine ⟨fun _ => hx, ?_⟩
    by_cases hin : ∃ i ∈ dom, i.1 ≤ s ∧ s < i.2
    · exact ih ⟨fun i hi => h1 i (by simp [hi]), h2.2⟩ (fun p hp' i hi => by injection hp' with hp'; subst hp'; exact h2.1 i hi) hin
    · have hy : s < y := by
        rcases List.mem_cons.mp hi with rfl | hi
        · exact hi2
        · exact absurd ⟨i, hi, hi1, hi2⟩ hin
      cases dom with
      | nil => trivial
      | cons d2 dom =>
        obtain ⟨x2, y2⟩ := d2
        have far : ∀ (d : List (Int × Int)) (q : Int), s < q → d.Pairwise (fun a b => a.2 ≤ b.1) → (∀ i ∈ d, i.1 < i.2) → (∀ i ∈ d, q ≤ i.1) → LowerOK s (some q) d := by
          intro d
          induction d with
          | nil => intro q _ _ _ _; trivial
          | cons e d ihd =>
            obtain ⟨a, b⟩ := e
            intro q hq hpw hlt hle
            rw [List.pairwise_cons] at hpw
            have hab : a < b := hlt (a, b) (by simp)
            have hqa : q ≤ a := hle (a, b) (by simp)
            refine ⟨fun h => absurd (h q rfl) (by omega), ihd b (by omega) hpw.2 (fun i hi => hlt i (by simp [hi])) (fun i hi => hpw.1 i hi)⟩
        exact far _ y hy h2.2 (fun i hi => h1 i (by simp [hi])) h2.1

theorem upperOK_mem {s : Int} {dom : List (Int × Int)} : ∀ {px : Option Int}, (∀ i ∈ dom, i.1 < i.2) →
    dom.Pairwise (fun a b => b.2 ≤ a.1) →
    (∀ p, px = some p → ∀ i ∈ dom, i.2 ≤ p) → (∃ i ∈ dom, i.1 ≤ s ∧ s < i.2) → UpperOK s px dom := by
  induction dom with
  | nil => intro py _ _ _ _; trivial
  | cons d dom ih =>
    obtain ⟨x, y⟩ := d
    intro px h1 h2 hp hm
    rw [List.pairwise_cons] at h2
    have hxy : x < y := h1 (x, y) (by simp)
    obtain ⟨i, hi, hi1, hi2⟩ := hm
    have hx : s < y := by
      rcases List.mem_cons.mp hi with rfl | hi
      · exact hi2
      · have := h2.1 i hi; dsimp only at this; omega
    refine ⟨fun _ => hx, ?_⟩
    by_cases hin : ∃ i ∈ dom, i.1 ≤ s ∧ s < i.2
    · exact ih (fun i hi => h1 i (by simp [hi])) h2.2 (fun p hp' i hi => by injection hp' with hp'; subst hp'; exact h2.1 i hi) hin
    · have hy : x ≤ s := by
        rcases List.mem_cons.mp hi with rfl | hi
        · exact hi1
        · exact absurd ⟨i, hi, hi1, hi2⟩ hin
      have far : ∀ (d : List (Int × Int)) (q : Int), q ≤ s → d.Pairwise (fun a b => b.2 ≤ a.1) → (∀ i ∈ d, i.1 < i.2) → (∀ i ∈ d, i.2 ≤ q) → UpperOK s (some q) d := by
        intro d
        induction d with
        | nil => intro q _ _ _ _; trivial
        | cons e d ihd =>
          obtain ⟨a, b⟩ := e
          intro q hq hpw hlt hle
          rw [List.pairwise_cons] at hpw
          have hab : a < b := hlt (a, b) (by simp)
          have hqa : b ≤ q := hle (a, b) (by simp)
          refine ⟨fun h => absurd (h q rfl) (by omega), ihd a (by omega) hpw.2 (fun i hi => hlt i (by simp [hi])) (fun i hi => hpw.1 i hi)⟩
      exact far _ x hy h2.2 (fun i hi => h1 i (by simp [hi])) h2.1

theorem upperOK_append {s : Int} {d2 : List (Int × Int)} {x y : Int} : ∀ {d1 : List (Int × Int)} {px : Option Int},
    UpperOK s px (d1 ++ (x, y) :: d2) → (∀ i ∈ d1, s < i.1) → (d1 = [] → ∀ p, px = some p → s < p) → s < y := by
  intro d1
  induction d1 with
  | nil => intro px h _ h2; exact h.1 (h2 rfl)
  | cons d d1 ih =>
    obtain ⟨a, b⟩ := d
    intro px h h1 _
    refine ih h.2 (fun i hi => h1 i (by simp [hi])) (fun _ p hp => ?_)
    injection hp with hp
    subst hp
    exact h1 (a, b) (by simp)

/-- The conditions encoded by the clauses are membership. -/
theorem dom_iff {s : Int} {dom : List (Int × Int)} (hs : SortedDom dom) (hne : dom ≠ []) :
    (LowerOK s none dom ∧ UpperOK s none dom.reverse) ↔ ∃ i ∈ dom, i.1 ≤ s ∧ s < i.2 := by
  constructor
  · rintro ⟨hl, hu⟩
    cases dom with
    | nil => exact absurd rfl hne
    | cons d dom =>
      obtain ⟨x, y⟩ := d
      have hx : x ≤ s := hl.1 (fun _ h => by cases h)
      -- the last interval starting at or before `s`
      have key : ∀ (d1 : List (Int × Int)) (x y : Int) (d2 : List (Int × Int)), x ≤ s → d2.Pairwise (fun a b => a.2 ≤ b.1) →
          (∀ i ∈ d2, i.1 < i.2) →
          ∃ e1 x' y' e2, d1 ++ (x, y) :: d2 = e1 ++ (x', y') :: e2 ∧ x' ≤ s ∧ ∀ i ∈ e2, s < i.1 := by
        intro d1 x y d2
        induction d2 generalizing d1 x y with
        | nil => intro hx _ _; exact ⟨d1, x, y, [], rfl, hx, by simp⟩
        | cons e d2 ih =>
          obtain ⟨a, b⟩ := e
          intro hx hpw hlt
          rw [List.pairwise_cons] at hpw
          by_cases ha : a ≤ s
          · obtain ⟨e1, x', y', e2, g1, g2, g3⟩ := ih (d1 ++ [(x, y)]) a b ha hpw.2 (fun i hi => hlt i (by simp [hi]))
            exact ⟨e1, x', y', e2, by rw [← g1]; simp, g2, g3⟩
          · refine ⟨d1, x, y, (a, b) :: d2, rfl, hx, ?_⟩
            intro i hi
            rcases List.mem_cons.mp hi with rfl | hi
            · dsimp only; omega
            · have h1 := hpw.1 i hi
              have h2 := hlt (a, b) (by simp)
              dsimp only at h1 h2; omega
      obtain ⟨h1, h2⟩ := hs
      rw [List.pairwise_cons] at h2
      obtain ⟨e1, x', y', e2, g1, g2, g3⟩ := key [] x y dom hx h2.2 (fun i hi => h1 i (by simp [hi]))
      rw [List.nil_append] at g1
      refine ⟨(x', y'), by rw [g1]; simp, g2, ?_⟩
      rw [g1, List.reverse_append, List.reverse_cons, List.append_assoc] at hu
      exact upperOK_append (d1 := e2.reverse) (px := none) hu (fun i hi => g3 i (by simpa using hi)) (fun _ p h => by cases h)
  · intro hm
    refine ⟨lowerOK_mem hs (fun p h => by cases h) hm, upperOK_mem ?_ ?_ (fun p h => by cases h) ?_⟩
    · intro i hi; exact hs.1 i (by simpa using hi)
    · rw [List.pairwise_reverse]; exact hs.2
    · obtain ⟨i, hi, h⟩ := hm; exact ⟨i, by simpa using hi, h⟩

/-! ### Constraints over one variable -/

/-- The value of the order literal equivalent to a constraint (solver.cc:1081-1088). -/
def simpleValue (co rhs : Int) : Int := if co > 0 then floordiv rhs co else -floordiv rhs (-co) - 1

theorem simple_iff {co rhs s : Int} (h : co ≠ 0) : co * s ≤ rhs ↔ (if co < 0 then ¬ s ≤ simpleValue co rhs else s ≤ simpleValue co rhs) := by
  unfold simpleValue
  by_cases hp : co > 0
  · rw [if_pos hp, if_neg (by omega), le_floordiv_iff hp, mul_comm]
  · have hn : co < 0 := by omega
    rw [if_neg hp, if_pos hn]
    have := le_floordiv_iff (n := rhs) (m := -co) (k := -s) (by omega)
    rw [neg_mul_neg, mul_comm] at this
    rw [← this]
    omega

theorem litTrue_signed {l : Int} (h : l ≠ 0) (co : Int) (p : Prop) :
    (litTrue β (if co < 0 then -l else l) ↔ p) ↔ (litTrue β l ↔ if co < 0 then ¬ p else p) := by
  split_ifs
  · rw [litTrue_neg h]; tauto
  · exact Iff.rfl

theorem tr_freeLit {cc : CC} {lit value : Int} {var : Nat} (hl0 : lit ≠ 0) (hs : m = false → (litTrue β lit ↔ σ var ≤ value)) :
    Tr β σ m (InvF β σ F) (freeLit cc lit var value)
      (fun o W => InvF β σ F W ∧ ∀ l, o = some l → l ≠ 0 ∧ (litTrue β l ↔ litTrue β lit)) := by
  unfold freeLit
  refine Tr.bind (Q := fun _ => InvF β σ F) (tr_read (fun _ _ _ h => (litmapAt_iff.mp h).2)) (fun e => ?_)
  refine Tr.ite (fun _ => Tr.pure (fun _ h => ⟨h, fun l hl => by injection hl with hl; subst hl; exact ⟨hl0, Iff.rfl⟩⟩)) (fun _ => ?_)
  refine Tr.bind (Q := fun l W => InvF β σ F W ∧ l ≠ 0) ?_ (fun l => ?_)
  · intro W a W' hx
    obtain ⟨rfl, rfl⟩ := newLit_iff.mp hx
    refine ⟨Grow.ev rfl rfl, fun hP _ => ⟨⟨(hP.1.log (e := .lit W.nextLit) trivial).nextLit, hP.2⟩, ?_⟩⟩
    have := hP.1.good.pos
    omega
  refine Tr.assume (by ext_auto) (fun hln => ?_)
  refine Tr.bind (Q := fun _ W => InvF β σ F W ∧ (litTrue β l ↔ σ var ≤ value)) (Tr.modify (fun _ => Grow.ev rfl rfl) ?_) (fun _ => ?_)
  · intro W hW ha
    exact ⟨hW.log (e := .order l var value) trivial, ha.1 l var value (by simp)⟩
  refine Tr.assume (by ext_auto) (fun hll => ?_)
  refine Tr.bind (tr_clause ?_) (fun b => ?_)
  · intro hm
    by_cases h : litTrue β lit
    · exact ⟨l, by simp, hll.mpr ((hs hm).mp h)⟩
    · exact ⟨-lit, by simp, (litTrue_neg hl0).mpr h⟩
  refine Tr.assume (by ext_auto) (fun hc1 => ?_)
  refine Tr.ite (fun _ => Tr.pure (fun _ h => ⟨h, fun _ h => by cases h⟩)) (fun _ => ?_)
  refine Tr.bind (tr_clause ?_) (fun b => ?_)
  · intro hm
    by_cases h : litTrue β lit
    · exact ⟨lit, by simp, h⟩
    · exact ⟨-l, by simp, (litTrue_neg hln).mpr (fun h' => h ((hs hm).mpr (hll.mp h')))⟩
  refine Tr.assume (by ext_auto) (fun hc2 => ?_)
  refine Tr.ite (fun _ => Tr.pure (fun _ h => ⟨h, fun _ h => by cases h⟩)) (fun _ => ?_)
  refine Tr.pure (fun _ h => ⟨h, fun l' hl' => ?_⟩)
  injection hl' with hl'
  subst hl'
  simp [litTrue_neg hl0] at hc1
  simp [litTrue_neg hln] at hc2
  exact ⟨hln, by tauto⟩

theorem tr_useLit {cc : CC} {lit value : Int} {var : Nat} (hl0 : lit ≠ 0) (hs : m = false → (litTrue β lit ↔ σ var ≤ value)) :
    Tr β σ m (InvF β σ F) (useLit cc lit var value) (fun b W => InvF β σ F W ∧ (b = true → (litTrue β lit ↔ σ var ≤ value))) := by
  unfold useLit
  refine Tr.bind (tr_freeLit hl0 hs) (fun o => ?_)
  refine Tr.assume (by ext_auto) (fun ho => ?_)
  cases o with
  | none => exact Tr.pure (fun _ h => ⟨h, fun h => by cases h⟩)
  | some l =>
    obtain ⟨hln, hll⟩ := ho l rfl
    intro W a W' hx
    refine ⟨?_, ?_⟩
    · refine Ext'.ext (x := _) ?_ _ _ _ hx
      ext_auto
    rintro ⟨hi, hf⟩ hr
    simp only [smok] at hx
    obtain ⟨_, W1, rfl, _, W2, rfl, _, W3, ⟨-, vs1, g1, -, rfl⟩, vs, W4, ⟨g2, rfl⟩, vs', W5, ⟨g3, rfl⟩, _, W6, rfl, rfl, rfl⟩ := hx
    have ht : litTrue β l ↔ σ var ≤ value := hr.1 l var value (by simp)
    have i1 := Inv.litmap (Inv.log (Inv.log hi (e := .watch l) trivial) (e := .watch (-l)) trivial)
      (SubMap.trans (SubMap.grow (mapOffset l + 1) W.litmap) (SubMap.link vs1 l value _))
    have i2 := Inv.log (i1.setEntry (p := vs1.litPrev value) (s := vs1.litSucc value) hln ht) (e := .order l var value) trivial
    have hst := setLiteral_eff (hi.wf _ _ g2) hln g3
    refine ⟨⟨i2.setTab g2 hst ht, ?_⟩, fun _ => hll.symm.trans ht⟩
    rw [← hf]
    unfold frame
    dsimp only
    rw [map_set_bounds g2 hst.bounds]

theorem tr_useFact {t : Bool} {value : Int} {var : Nat} (tt : litTrue β 1) (hs : m = false → (t = true ↔ σ var ≤ value)) :
    Tr β σ m (InvF β σ F) (useFact t var value) (fun _ W => InvF β σ F W ∧ (t = true ↔ σ var ≤ value)) := by
  unfold useFact
  intro W a W' hx
  refine ⟨?_, ?_⟩
  · refine Ext'.ext (x := _) ?_ _ _ _ hx
    ext_auto
  rintro ⟨hi, hf⟩ hr
  simp only [smok] at hx
  obtain ⟨ps, W1, ⟨vs1, g1, rfl, rfl⟩, _, W2, rfl, vs, W3, ⟨g2, rfl⟩, vs', W4, ⟨g3, rfl⟩, _, W5, rfl, rfl, rfl⟩ := hx
  have ht : t = true ↔ σ var ≤ value := by
    cases m with
    | false => exact hs rfl
    | true =>
      have hk := (hr.2 rfl).2 _ var value _ (List.mem_append_right _ (List.mem_singleton.mpr rfl))
      cases t with
      | true => simpa using hk
      | false => rw [if_neg (by decide)] at hk; simpa using hk
  have hln : (if t = true then TRUE_LIT else -TRUE_LIT) ≠ 0 := by split_ifs <;> decide
  have hlt := (litTrue_sign (t := t) tt).trans ht
  have hst := setLiteral_eff (hi.wf _ _ g2) hln g3
  have i1 := Inv.litmap hi (SubMap.link vs1 (if t then TRUE_LIT else -TRUE_LIT) value _)
  have i2 := i1.fact (l := if t then TRUE_LIT else -TRUE_LIT) (value := value) (var := var)
    (p := if t then vs1.litSucc value else vs1.litPrev value) (by
      cases t with
      | true => simpa using ht
      | false => rw [if_neg (by decide)]; simpa using ht)
  refine ⟨⟨i2.setTab g2 hst hlt, ?_⟩, ht⟩
  rw [← hf]
  unfold frame
  dsimp only
  rw [map_set_bounds g2 hst.bounds]

/-- The clauses tying the constraint literal to the order literal (solver.cc:1117-1126). -/
theorem tr_tie {cc : CC} {clit l : Int} {strict : Bool} {p : Prop} (hc0 : clit ≠ 0) (hl0 : l ≠ 0) (hlp : litTrue β l ↔ p)
    (hs : m = false → attached β clit strict p) :
    Tr β σ m (InvF β σ F) (do
      if !(← addClause cc [-clit, l]) then return false
      else if strict then addClause cc [-l, clit]
      else return true)
      (fun b W => InvF β σ F W ∧ (b = true → attached β clit strict p)) := by
  refine Tr.bind (tr_clause ?_) (fun b => ?_)
  · intro hm
    by_cases h : litTrue β clit
    · refine ⟨l, by simp, hlp.mpr ?_⟩
      have h2 := hs hm
      unfold attached at h2
      split_ifs at h2
      · exact h2.mp h
      · exact h2 h
    · exact ⟨-clit, by simp, (litTrue_neg hc0).mpr h⟩
  refine Tr.assume (by ext_auto) (fun hc1 => ?_)
  have hc1 : litTrue β clit → p := by
    intro h
    simp only [List.mem_cons, List.not_mem_nil, or_false, exists_eq_or_imp, exists_eq_left, litTrue_neg hc0, hlp] at hc1
    rcases hc1 with h' | h'
    · exact absurd h h'
    · exact h'
  refine Tr.ite (fun _ => Tr.pure (fun _ h => ⟨h, fun h => by cases h⟩)) (fun _ => ?_)
  refine Tr.ite (fun hst => ?_) (fun hst => Tr.pure (fun _ h => ⟨h, fun _ => ?_⟩))
  · refine Tr.post (tr_clause (m := m) ?_) ?_
    · intro hm
      by_cases h : litTrue β clit
      · exact ⟨clit, by simp, h⟩
      · refine ⟨-l, List.mem_cons_self, (litTrue_neg hl0).mpr (fun h' => h ?_)⟩
        have h2 := hs hm
        unfold attached at h2
        rw [if_pos hst] at h2
        exact h2.mpr (hlp.mp h')
    · rintro b W ⟨hW, hc2⟩
      refine ⟨hW, fun _ => ?_⟩
      simp only [List.mem_cons, List.not_mem_nil, or_false, exists_eq_or_imp, exists_eq_left, litTrue_neg hl0, hlp] at hc2
      unfold attached
      rw [if_pos hst]
      refine ⟨hc1, fun hp => ?_⟩
      rcases hc2 with h' | h'
      · exact absurd hp h'
      · exact h'
  · unfold attached
    rw [if_neg hst]
    exact hc1

theorem value_neg_false {cc : CC} {log : List SEv} {l : Int} (h : cc.value log (-l) = some true) (hl : l ≠ 0) : cc.value log l = some false := by
  unfold CC.value at *
  rw [Int.natAbs_neg] at h
  by_cases h1 : l > 0
  · rw [if_neg (by omega)] at h
    rw [if_pos h1]
    cases ha : cc.atom log l.natAbs <;> simp_all
  · rw [if_pos (by omega)] at h
    rw [if_neg h1, h]
    rfl

theorem tr_addSimple {cc : CC} {clit co rhs : Int} {var : Nat} {strict : Bool} (he : EnvSound cc β) (h0 : cc.level = 0)
    (hc0 : clit ≠ 0) (hco : co ≠ 0) (hs : m = false → attached β clit strict (co * σ var ≤ rhs)) :
    Tr β σ m (InvF β σ F) (addSimple cc clit co var rhs strict)
      (fun b W => InvF β σ F W ∧ (b = true → attached β clit strict (co * σ var ≤ rhs))) := by
  have hval : (if co > 0 then floordiv rhs co else -floordiv rhs (-co) - 1) = simpleValue co rhs := rfl
  have hsig : (if co > 0 then clit else -clit) = (if co < 0 then -clit else clit) := by split_ifs <;> first | rfl | omega
  have hsl0 : (if co < 0 then -clit else clit) ≠ 0 := by split_ifs <;> omega
  unfold addSimple
  refine Tr.bind (Q := fun f W => InvF β σ F W ∧ f = cc.isFalse W.log clit ∧ (f = true → ¬ litTrue β clit)) ?_ (fun f => ?_)
  · intro W a W' hx
    refine ⟨(tr_qFalseSound (σ := σ) (m := m) (F := F) he h0 _ _ _ hx).1, fun hP ha => ?_⟩
    have h1 := (tr_qFalseSound (σ := σ) (m := m) (F := F) he h0 _ _ _ hx).2 hP ha
    obtain ⟨rfl, rfl⟩ := qFalse_iff.mp hx
    exact ⟨hP, rfl, h1.2⟩
  refine Tr.ite (fun hc => Tr.pure (fun W h => ⟨h.1, fun _ => ?_⟩)) (fun hnf => ?_)
  · simp only [Bool.and_eq_true, Bool.not_eq_true'] at hc
    unfold attached
    rw [if_neg (by simp [hc.1])]
    intro hl
    exact absurd hl (h.2.2 hc.2)
  refine Tr.bind (Q := fun o W => InvF β σ F W ∧ ∀ t, o = some t →
    (t = true ↔ litTrue β (if co < 0 then -clit else clit)) ∧ (strict = false → litTrue β clit)) ?_ (fun truth => ?_)
  · rw [hsig]
    intro W a W' hx
    have hq := tr_qValueSound (σ := σ) (m := m) (F := F) he h0 _ _ _ hx
    refine ⟨hq.1, fun hP ha => ?_⟩
    have h1 := (hq.2 hP.1 ha).2.1
    obtain ⟨rfl, rfl⟩ := qValue_iff.mp hx
    refine ⟨hP.1, fun t ht => ⟨h1 t ht, fun hst => ?_⟩⟩
    have hff : cc.value W'.log clit ≠ some false := by
      intro hv
      apply hnf
      have : f = true := by rw [hP.2.1]; unfold CC.isFalse; rw [hv]; rfl
      simp [hst, this]
    have h2 := h1 t ht
    split_ifs at h2 ht with hneg
    · cases t with
      | true => exact absurd (value_neg_false ht hc0) hff
      | false => rw [litTrue_neg hc0] at h2; simpa using h2
    · cases t with
      | true => exact h2.mp rfl
      | false => exact absurd ht hff
  refine Tr.assume (by dsimp only; ext_auto) (fun htr => ?_)
  dsimp only
  rw [hval]
  refine Tr.bind (Q := fun b W => InvF β σ F W ∧ (b = true → strict = true)) ?_ (fun direct => ?_)
  · intro W a W' hx
    refine ⟨ext_canReuse.ext _ _ _ hx, fun hW _ => ?_⟩
    unfold canReuse at hx
    simp only [smok] at hx
    obtain ⟨vs, W1, ⟨-, rfl⟩, h⟩ := hx
    rcases h with ⟨h1, b, W2, ⟨-, rfl⟩, rfl, rfl⟩ | ⟨-, rfl, rfl⟩
    · exact ⟨hW, fun _ => h1.1⟩
    · exact ⟨hW, fun h => by cases h⟩
  refine Tr.assume (by ext_auto) (fun hd => ?_)
  -- the meaning of the order literal for a strict constraint
  have hstr : strict = true → (attached β clit strict (co * σ var ≤ rhs) ↔
      (litTrue β (if co < 0 then -clit else clit) ↔ σ var ≤ simpleValue co rhs)) := by
    intro h
    rw [h, litTrue_signed hc0]
    unfold attached
    rw [if_pos rfl, simple_iff hco]
  refine Tr.ite (fun hdt => ?_) (fun _ => ?_)
  · have hst := hd hdt
    cases truth with
    | none =>
      refine Tr.post (tr_useLit hsl0 (fun hm => (hstr hst).mp (hs hm))) ?_
      rintro b W ⟨hW, hb⟩
      exact ⟨hW, fun h => (hstr hst).mpr (hb h)⟩
    | some t =>
      have ht := (htr t rfl).1
      refine Tr.post (tr_useFact he.tt (fun hm => ht.trans ((hstr hst).mp (hs hm)))) ?_
      rintro b W ⟨hW, hb⟩
      exact ⟨hW, fun _ => (hstr hst).mpr (ht.symm.trans hb)⟩
  · refine Tr.bind (tr_update he.tt ?_) (fun l => ?_)
    · intro hm t ht _
      have h1 := (htr t ht).1
      have h2 := hs hm
      cases hst : strict with
      | true => exact h1.trans ((hstr hst).mp h2)
      | false =>
        rw [hst] at h2
        have hcl := (htr t ht).2 hst
        have h3 := (simple_iff hco).mp ((show litTrue β clit → co * σ var ≤ rhs from h2) hcl)
        split_ifs at h1 h3 with hneg
        · rw [litTrue_neg hc0] at h1
          exact ⟨fun h => absurd hcl (h1.mp h), fun h => absurd h h3⟩
        · exact ⟨fun _ => h3, fun _ => h1.mpr hcl⟩
    refine Tr.assume (by ext_auto) ?_
    rintro ⟨hl0, hl⟩
    have hlp : litTrue β (if co < 0 then -l else l) ↔ co * σ var ≤ rhs := by
      rw [simple_iff hco]
      split_ifs
      · rw [litTrue_neg hl0, hl]
      · exact hl
    have hlp0 : (if co < 0 then -l else l) ≠ 0 := by split_ifs <;> omega
    exact tr_tie hc0 hlp0 hlp hs

end Clingcon
