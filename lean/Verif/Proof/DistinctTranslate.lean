import Verif.Proof.DistinctDomain
import Verif.Proof.TranslateClause
import Verif.Proof.ConBuilder
import Verif.Proof.RunSound
import Verif.Proof.Fresh
import Verif.Spec.Constraints

/-! The translation of distinct constraints to weight constraints. -/
set_option linter.unusedSimpArgs false
namespace Clingcon
open Spec

variable {β : Nat → Bool} {σ : Nat → Int} {cc : CC} {tc : TConf} {W W' : World} {m : Bool}

/-- All clauses hold. -/
def ClausesHold (β : Nat → Bool) (log : List SEv) : Prop := ∀ c, SEv.clause c ∈ log → ∃ l ∈ c, litTrue β l

/-- No order literal is the true literal. -/
def NoFact (W : World) : Prop := ∀ (v : Nat) (vs : VarState) (k l : Int), W.vars[v]? = some vs → (k, l) ∈ vs.with → l ≠ TRUE_LIT

/-- The literals of the tables are known to the Boolean solver. -/
structure TabOk (W : World) : Prop where
  pos : 1 < W.nextLit
  below : ∀ (v : Nat) (vs : VarState) (k l : Int), W.vars[v]? = some vs → (k, l) ∈ vs.with → |l| < W.nextLit

theorem Grow.respects (h : Grow m W W') (hr : Respects β σ W'.log) : Respects β σ W.log := by
  obtain ⟨⟨n, e⟩, -⟩ := h
  exact fun l v k hm => hr l v k (by rw [e]; exact List.mem_append_right _ hm)
theorem Grow.clauses (h : Grow m W W') (hr : ClausesHold β W'.log) : ClausesHold β W.log := by
  obtain ⟨⟨n, e⟩, -⟩ := h
  exact fun c hm => hr c (by rw [e]; exact List.mem_append_right _ hm)
theorem Grow.all (h : Grow m W W') (hr : AllHold β W'.log) : AllHold β W.log := by
  obtain ⟨⟨n, e⟩, -⟩ := h
  exact fun c hm => hr c (by rw [e]; exact List.mem_append_right _ hm)

/-! ### Order literals -/

theorem SameTab.bnd {vs vs' : VarState} (h : SameTab vs vs') : vs'.minBound = vs.minBound ∧ vs'.maxBound = vs.maxBound := ⟨bounds_min h.bounds, bounds_max h.bounds⟩
theorem SetTab.bnd {vs vs' : VarState} {k l : Int} (h : SetTab vs vs' k l) : vs'.minBound = vs.minBound ∧ vs'.maxBound = vs.maxBound := ⟨bounds_min h.bounds, bounds_max h.bounds⟩

theorem get_set {vars : List VarState} {v w : Nat} {a b : VarState} (h : (vars.set v a)[w]? = some b) : (w = v ∧ b = a) ∨ vars[w]? = some b := by
  rw [List.getElem?_set] at h
  split_ifs at h with h1 h2
  · injection h with h; exact .inl ⟨h1.symm, h.symm⟩
  · exact .inr h

theorem GotLit.noFact {v : Nat} {k l : Int} (h : GotLit W v k l W') (hp : 1 < W.nextLit) (hn : NoFact W) : NoFact W' := by
  cases h with
  | low => exact hn
  | high => exact hn
  | old vs vs' l hv h1 h2 hm ht =>
    intro w ws a b hw hab
    rcases get_set hw with ⟨rfl, rfl⟩ | hw
    · exact hn _ _ _ _ hv ((ht.mem a b).mp hab)
    · exact hn _ _ _ _ hw hab
  | new vs vs' l hv h1 h2 hm ht hl =>
    intro w ws a b hw hab
    rcases get_set hw with ⟨rfl, rfl⟩ | hw
    · have := (ht.mem a b).mp hab
      split_ifs at this
      · subst this; unfold TRUE_LIT; rcases hl with rfl | rfl <;> omega
      · exact hn _ _ _ _ hv this
    · exact hn _ _ _ _ hw hab

theorem GotLit.high_of {v : Nat} {k : Int} (h : GotLit W v k TRUE_LIT W') (hp : 1 < W.nextLit) (hn : NoFact W) :
    ∃ vs, W.vars[v]? = some vs ∧ vs.maxBound ≤ k := by
  generalize hl : TRUE_LIT = l at h
  cases h with
  | low => exact absurd hl (by decide)
  | high vs hv h1 h2 => exact ⟨vs, hv, h2⟩
  | old vs vs' l hv h1 h2 hm ht => exact absurd hl.symm (hn _ _ _ _ hv hm)
  | new vs vs' l hv h1 h2 hm ht hl' => unfold TRUE_LIT at hl; omega

theorem GotLit.same {v : Nat} {k l : Int} (h : GotLit W v k l W') {vs : VarState} (hv : W'.vars[v]? = some vs) :
    ∃ vs', W.vars[v]? = some vs' ∧ vs.minBound = vs'.minBound ∧ vs.maxBound = vs'.maxBound := by
  cases h with
  | low vs1 hv1 => exact ⟨vs, hv, rfl, rfl⟩
  | high vs1 hv1 => exact ⟨vs, hv, rfl, rfl⟩
  | old vs1 vs' l hv1 h1 h2 hm ht =>
    rcases get_set hv with ⟨-, rfl⟩ | hw
    · exact ⟨vs1, hv1, ht.bnd⟩
    · exact ⟨vs, hw, rfl, rfl⟩
  | new vs1 vs' l hv1 h1 h2 hm ht hl' =>
    rcases get_set hv with ⟨-, rfl⟩ | hw
    · exact ⟨vs1, hv1, ht.bnd⟩
    · exact ⟨vs, hw, rfl, rfl⟩

theorem GotLit.lit {v : Nat} {k l : Int} (h : GotLit W v k l W') : W.nextLit ≤ W'.nextLit := by
  cases h with
  | low => exact le_rfl
  | high => exact le_rfl
  | old => exact le_rfl
  | new => show W.nextLit ≤ W.nextLit + 1; omega

theorem GotLit.tabOk {v : Nat} {k l : Int} (h : GotLit W v k l W') (ht : TabOk W) : TabOk W' ∧ |l| < W'.nextLit := by
  have hp := ht.pos
  cases h with
  | low => exact ⟨ht, by unfold TRUE_LIT; simpa using hp⟩
  | high => exact ⟨ht, by unfold TRUE_LIT; simpa using hp⟩
  | old vs vs' l hv h1 h2 hm hs =>
    refine ⟨⟨hp, fun w ws a b hw hab => ?_⟩, ht.below _ _ _ _ hv hm⟩
    rcases get_set hw with ⟨rfl, rfl⟩ | hw
    · exact ht.below _ _ _ _ hv ((hs.mem a b).mp hab)
    · exact ht.below _ _ _ _ hw hab
  | new vs vs' l hv h1 h2 hm hs hl =>
    have hb : |l| < W.nextLit + 1 := by rcases hl with rfl | rfl <;> [rw [abs_of_pos (by omega)]; rw [abs_neg, abs_of_pos (by omega)]] <;> omega
    refine ⟨⟨by show 1 < W.nextLit + 1; omega, fun w ws a b hw hab => ?_⟩, hb⟩
    show |b| < W.nextLit + 1
    rcases get_set hw with ⟨rfl, rfl⟩ | hw
    · have := (hs.mem a b).mp hab
      split_ifs at this
      · subst this; exact hb
      · have := ht.below _ _ _ _ hv this; omega
    · have := ht.below _ _ _ _ hw hab; omega

/-! ### Literals for values -/

/-- The value of a term. -/
abbrev termVal (σ : Nat → Int) (e : CoVarVec × Int) : Int := wsum σ e.1 + e.2

/-- The representation of a term. -/
def RepOk (σ : Nat → Int) (cnt : Int → Nat) (e : CoVarVec × Int) (d : IntervalSet) (r : DiffElem) : Prop :=
  (r.var = INVALID_VAR → ∀ v ∈ covered d, 1 < cnt v → v = termVal σ e) ∧
  (r.var ≠ INVALID_VAR → r.co ≠ 0 ∧ termVal σ e = r.fixed + r.co * σ r.var ∧ ∀ v ∈ covered d, r.co ∣ v - r.fixed)

theorem ext_equalLit {e : DiffElem} {v : Int} : Ext' m (equalLit cc e v) := by
  unfold equalLit; dsimp only; ext_auto

theorem Inv.newLit (h : Inv β σ W) : Inv β σ { W with nextLit := W.nextLit + 1, log := .lit W.nextLit :: W.log } :=
  (h.log (e := .lit W.nextLit) trivial).nextLit

theorem equalLit_spec {cnt : Int → Nat} {e : CoVarVec × Int} {d : IntervalSet} {r : DiffElem} {v : Int} {o : Option Int} (tt : litTrue β 1)
    (h : equalLit cc r v W = .ok (o, W')) (hi : Inv β σ W) (hp : 1 < W.nextLit) (hr : Respects β σ W'.log) (hc : ClausesHold β W'.log)
    (hx : RepOk σ cnt e d r) (hv : v ∈ covered d) (hn : 1 < cnt v) :
    Inv β σ W' ∧ W.nextLit ≤ W'.nextLit ∧ (NoFact W → NoFact W') ∧
      ∀ l, o = some l → (termVal σ e = v → litTrue β l) ∧ (NoFact W → litTrue β l → termVal σ e = v) := by
  unfold equalLit at h
  split_ifs at h with hvar
  swap
  · obtain ⟨rfl, rfl⟩ := pure_iff.mp h
    refine ⟨hi, le_rfl, id, fun l hl => ?_⟩
    injection hl with hl
    subst hl
    exact ⟨fun _ => tt, fun _ _ => (hx.1 (by simpa using hvar) v hv hn).symm⟩
  obtain ⟨g1, g2, g3⟩ := hx.2 hvar
  obtain ⟨q, hq⟩ := g3 v hv
  have hdiv : Int.tdiv (v - r.fixed) r.co = q := by rw [hq]; exact Int.mul_tdiv_cancel_left q g1
  have hiff : termVal σ e = v ↔ σ r.var = q := by
    rw [g2]
    constructor
    · intro he
      exact Int.eq_of_mul_eq_mul_left g1 (by omega)
    · intro he; rw [he]; omega
  dsimp only at h
  rw [hdiv] at h
  obtain ⟨a, W1, h1, h⟩ := SM.bind_ok h
  obtain ⟨b', W2, h2, h⟩ := SM.bind_ok h
  have gl1 := getLiteral_eff hi.wf hi.good.pos h1
  have hl1 := gl1.lit
  have grow2 : Grow false W2 W' := by
    refine Ext'.ext (m := false) ?_ _ _ _ h
    ext_auto
  have grow1 := (ext_getLiteral (m := false)).ext _ _ _ h2
  obtain ⟨i1, -, a1, a2⟩ := gl1.inv tt hi ((grow1.trans grow2).respects hr)
  have gl2 := getLiteral_eff i1.wf i1.good.pos h2
  have hl2 := gl2.lit
  obtain ⟨i2, -, b1, b2⟩ := gl2.inv tt i1 (grow2.respects hr)
  have hnf : NoFact W → NoFact W2 := fun hh => gl2.noFact (by omega) (gl1.noFact hp hh)
  split_ifs at h with c1 c2
  · obtain ⟨rfl, rfl⟩ := pure_iff.mp h
    refine ⟨i2, by omega, hnf, fun l hl => ?_⟩
    injection hl with hl
    subst hl
    rw [hiff, Spec.litTrue_neg _ _ b1, b2]
    have : σ r.var ≤ q := a2.mp (by rw [c1]; exact tt)
    exact ⟨fun _ => by omega, fun _ _ => by omega⟩
  · obtain ⟨rfl, rfl⟩ := pure_iff.mp h
    refine ⟨i2, by omega, hnf, fun l hl => ?_⟩
    injection hl with hl
    subst hl
    rw [hiff, a2]
    refine ⟨fun hh => by omega, fun hh _ => ?_⟩
    exfalso
    have hb : b' = TRUE_LIT := neg_injective c2
    subst hb
    obtain ⟨vs1, e1, e2⟩ := gl2.high_of (by omega) (gl1.noFact hp hh)
    obtain ⟨vs, e3, e4, e5⟩ := gl1.same e1
    have hbd := hi.good.bound _ _ e3
    cases gl1 with
    | low vs' hv' h' => rw [e3] at hv'; injection hv' with hv'; subst hv'; omega
    | high => exact c1 rfl
    | old vs' _ _ hv' _ h' => rw [e3] at hv'; injection hv' with hv'; subst hv'; omega
    | new vs' _ _ hv' _ h' => rw [e3] at hv'; injection hv' with hv'; subst hv'; omega
  · obtain ⟨lit, W3, h3, h⟩ := SM.bind_ok h
    obtain ⟨rfl, rfl⟩ := newLit_iff.mp h3
    have hpos : W2.nextLit ≠ 0 := by have := i2.good.pos; omega
    have i3 := i2.newLit
    have cl : ∀ c, SEv.clause c ∈ W'.log → evHolds β (.clause c) := fun c h => hc c h
    obtain ⟨r1, W4, h4, h⟩ := SM.bind_ok h
    obtain ⟨-, rfl⟩ := addClause_iff.mp h4
    have nf : ∀ W5 : World, W5.vars = W2.vars → NoFact W → NoFact W5 := fun W5 he hh w ws a b hw => hnf hh w ws a b (by rw [← he]; exact hw)
    split_ifs at h with c3
    · obtain ⟨rfl, rfl⟩ := pure_iff.mp h
      exact ⟨i3.log (e := .clause [-a, - -b', W2.nextLit]) (cl _ (by simp)), by show _ ≤ W2.nextLit + 1; omega, nf _ rfl, fun l hl => by cases hl⟩
    obtain ⟨r2, W5, h5, h⟩ := SM.bind_ok h
    obtain ⟨-, rfl⟩ := addClause_iff.mp h5
    split_ifs at h with c4
    · obtain ⟨rfl, rfl⟩ := pure_iff.mp h
      exact ⟨(i3.log (e := .clause [-a, - -b', W2.nextLit]) (cl _ (by simp))).log (e := .clause [a, -W2.nextLit]) (cl _ (by simp)), by show _ ≤ W2.nextLit + 1; omega, nf _ rfl, fun l hl => by cases hl⟩
    obtain ⟨r3, W6, h6, h⟩ := SM.bind_ok h
    obtain ⟨-, rfl⟩ := addClause_iff.mp h6
    have fin : Inv β σ W' ∧ W'.vars = W2.vars ∧ W'.nextLit = W2.nextLit + 1 ∧ (o = none ∨ o = some W2.nextLit) := by
      split_ifs at h with c5
      · obtain ⟨rfl, rfl⟩ := pure_iff.mp h
        exact ⟨((i3.log (e := .clause [-a, - -b', W2.nextLit]) (cl _ (by simp))).log (e := .clause [a, -W2.nextLit]) (cl _ (by simp))).log (e := .clause [-b', -W2.nextLit]) (cl _ (by simp)), rfl, rfl, .inl rfl⟩
      · obtain ⟨rfl, rfl⟩ := pure_iff.mp h
        exact ⟨((i3.log (e := .clause [-a, - -b', W2.nextLit]) (cl _ (by simp))).log (e := .clause [a, -W2.nextLit]) (cl _ (by simp))).log (e := .clause [-b', -W2.nextLit]) (cl _ (by simp)), rfl, rfl, .inr rfl⟩
    have hlog : SEv.clause [-a, - -b', W2.nextLit] ∈ W'.log ∧ SEv.clause [a, -W2.nextLit] ∈ W'.log ∧ SEv.clause [-b', -W2.nextLit] ∈ W'.log := by
      split_ifs at h <;> obtain ⟨-, rfl⟩ := pure_iff.mp h <;> simp
    obtain ⟨f1, f2, f3, f4⟩ := fin
    refine ⟨f1, by omega, nf _ f2, fun l hl => ?_⟩
    have : l = W2.nextLit := by rcases f4 with f4 | f4 <;> rw [f4] at hl <;> [cases hl; (injection hl with hl; exact hl.symm)]
    subst this
    have k1 := hc _ hlog.1
    have k2 := hc _ hlog.2.1
    have k3 := hc _ hlog.2.2
    simp only [List.mem_cons, List.not_mem_nil, or_false, exists_eq_or_imp, exists_eq_left, neg_neg, Spec.litTrue_neg _ _ a1, Spec.litTrue_neg _ _ b1,
      Spec.litTrue_neg _ _ hpos, a2, b2] at k1 k2 k3
    rw [hiff]
    constructor
    · intro he; rcases k1 with k1 | k1 | k1
      · omega
      · omega
      · exact k1
    · intro _ hl'
      rcases k2 with k2 | k2
      · rcases k3 with k3 | k3
        · omega
        · exact absurd hl' k3
      · exact absurd hl' k2

/-- The terms, their domains and their representations. -/
def Reps (σ : Nat → Int) (cnt : Int → Nat) : List (CoVarVec × Int) → List IntervalSet → List DiffElem → Prop
  | [], [], [] => True
  | e :: es, d :: ds, r :: rs => (RepOk σ cnt e d r ∧ Canonical d ∧ termVal σ e ∈ covered d) ∧ Reps σ cnt es ds rs
  | _, _, _ => False

theorem ext_valueLits {v : Int} : ∀ {ds : List IntervalSet} {rs : List DiffElem}, Ext' m (valueLits cc v ds rs)
  | [], _ => Ext'.pure
  | _ :: _, [] => Ext'.ub
  | d :: ds, r :: rs => by
    unfold valueLits
    split_ifs
    · refine Ext'.bind ext_equalLit (fun l => ?_)
      cases l with
      | none => exact Ext'.pure
      | some l =>
        refine Ext'.bind ext_valueLits (fun r => ?_)
        cases r <;> exact Ext'.pure
    · exact ext_valueLits

theorem valueLits_spec {cnt : Int → Nat} {v : Int} (tt : litTrue β 1) (hn : 1 < cnt v) : ∀ {es : List (CoVarVec × Int)} {ds : List IntervalSet} {rs : List DiffElem} {W W' : World} {o : Option (List (Int × Int))},
    valueLits cc v ds rs W = .ok (o, W') → Inv β σ W → 1 < W.nextLit → Respects β σ W'.log → ClausesHold β W'.log → Reps σ cnt es ds rs →
    Inv β σ W' ∧ W.nextLit ≤ W'.nextLit ∧ (NoFact W → NoFact W') ∧
      ∀ ws, o = some ws → ((es.map (termVal σ)).count v : Int) ≤ weightSum β ws ∧ (NoFact W → weightSum β ws = (es.map (termVal σ)).count v) := by
  intro es
  induction es with
  | nil =>
    intro ds rs W W' o h hi hp hr hc hx
    match ds, rs, hx with
    | [], [], _ =>
    obtain ⟨rfl, rfl⟩ := pure_iff.mp h
    exact ⟨hi, le_rfl, id, fun ws hw => by injection hw with hw; subst hw; simp [weightSum]⟩
  | cons e es ih =>
    intro ds rs W W' o h hi hp hr hc hx
    match ds, rs, hx, h with
    | d :: ds, r :: rs, hx, h =>
    obtain ⟨⟨x1, x2, x3⟩, hx⟩ := hx
    unfold valueLits at h
    rw [List.map_cons, List.count_cons]
    split_ifs at h with hin
    · obtain ⟨l, W1, h1, h⟩ := SM.bind_ok h
      have gr : Grow false W1 W' := by
        refine Ext'.ext (m := false) ?_ _ _ _ h
        cases l with
        | none => exact Ext'.pure
        | some l =>
          refine Ext'.bind ext_valueLits (fun r => ?_)
          cases r <;> exact Ext'.pure
      obtain ⟨i1, l1, n1, q1⟩ := equalLit_spec tt h1 hi hp (gr.respects hr) (gr.clauses hc) x1 ((IntervalSet.contains_iff x2).mp hin) hn
      cases l with
      | none =>
        obtain ⟨rfl, rfl⟩ := pure_iff.mp h
        exact ⟨i1, l1, n1, fun ws hw => by cases hw⟩
      | some l =>
        obtain ⟨w, W2, h2, h⟩ := SM.bind_ok h
        have gr2 : Grow false W2 W' := by
          refine Ext'.ext (m := false) ?_ _ _ _ h
          cases w <;> exact Ext'.pure
        have hw2 : W2 = W' := by cases w <;> exact (pure_iff.mp h).2.symm
        subst hw2
        obtain ⟨i2, l2, n2, q2⟩ := ih h2 i1 (by omega) hr hc hx
        refine ⟨i2, by omega, fun hh => n2 (n1 hh), fun ws hw => ?_⟩
        cases w with
        | none => obtain ⟨rfl, -⟩ := pure_iff.mp h; cases hw
        | some w =>
          obtain ⟨rfl, -⟩ := pure_iff.mp h
          injection hw with hw
          subst hw
          obtain ⟨p1, p2⟩ := q1 l rfl
          obtain ⟨p3, p4⟩ := q2 w rfl
          rw [weightSum_cons]
          constructor
          · by_cases he : termVal σ e = v
            · rw [if_pos (p1 he)]; simp [he]; omega
            · rw [if_neg (c := (termVal σ e == v) = true) (by simpa using he)]
              split_ifs <;> push_cast <;> omega
          · intro hh
            rw [p4 (n1 hh)]
            by_cases he : termVal σ e = v
            · rw [if_pos (p1 he)]; simp [he]; omega
            · rw [if_neg (c := (termVal σ e == v) = true) (by simpa using he), if_neg (fun hl => he (p2 hh hl))]; push_cast; omega
    · obtain ⟨i2, l2, n2, q2⟩ := ih h hi hp hr hc hx
      refine ⟨i2, l2, n2, fun ws hw => ?_⟩
      have he : ¬ termVal σ e = v := by
        intro he
        rw [he] at x3
        exact hin ((IntervalSet.contains_iff x2).mpr x3)
      rw [if_neg (c := (termVal σ e == v) = true) (by simpa using he), add_zero]
      exact q2 ws hw

theorem ext_valueConstraints {lit : Int} {ds : List IntervalSet} {rs : List DiffElem} : ∀ {cs : List (Int × Nat)}, Ext' m (valueConstraints cc lit ds rs cs)
  | [] => Ext'.pure
  | (v, n) :: cs => by
    unfold valueConstraints
    split_ifs
    · exact ext_valueConstraints
    · refine Ext'.bind ext_valueLits (fun o => ?_)
      cases o with
      | none => exact Ext'.pure
      | some ws =>
        refine Ext'.bind Ext'.assertS (fun _ => Ext'.bind ext_addWeight (fun r => ?_))
        split_ifs
        · exact Ext'.pure
        · exact ext_valueConstraints

theorem valueConstraints_spec {cnt : Int → Nat} {lit : Int} {es : List (CoVarVec × Int)} {ds : List IntervalSet} {rs : List DiffElem} (he : EnvSound cc β) (h0 : cc.level = 0)
    (hx : Reps σ cnt es ds rs) : ∀ {cs : List (Int × Nat)} {W W' : World} {b : Bool}, (∀ p ∈ cs, cnt p.1 = p.2) →
    valueConstraints cc lit ds rs cs W = .ok (b, W') → Inv β σ W → 1 < W.nextLit → Respects β σ W'.log → ClausesHold β W'.log →
    (AllHold β W'.log ∨ NoFact W ∧ (litTrue β lit → ∀ v, (es.map (termVal σ)).count v ≤ 1)) →
    Inv β σ W' ∧ (b = true → litTrue β lit → ∀ p ∈ cs, 1 < p.2 → (es.map (termVal σ)).count p.1 ≤ 1)
  | [], W, W', b, hcnt, h, hi, hp, hr, hc, hm => by
    obtain ⟨rfl, rfl⟩ := pure_iff.mp h
    exact ⟨hi, fun _ _ p hp => by cases hp⟩
  | (v, n) :: cs, W, W', b, hcnt, h, hi, hp, hr, hc, hm => by
    have hcnt' : ∀ p ∈ cs, cnt p.1 = p.2 := fun p hp => hcnt p (List.mem_cons_of_mem _ hp)
    unfold valueConstraints at h
    split_ifs at h with hle
    · obtain ⟨g1, g2⟩ := valueConstraints_spec he h0 hx hcnt' h hi hp hr hc hm
      refine ⟨g1, fun hb hl p hp hn => ?_⟩
      rcases List.mem_cons.mp hp with rfl | hp
      · exact absurd hn (by simpa using hle)
      · exact g2 hb hl p hp hn
    · obtain ⟨o, W1, h1, h⟩ := SM.bind_ok h
      have gr : Grow false W1 W' := by
        refine Ext'.ext (m := false) ?_ _ _ _ h
        cases o with
        | none => exact Ext'.pure
        | some ws =>
          refine Ext'.bind Ext'.assertS (fun _ => Ext'.bind ext_addWeight (fun r => ?_))
          split_ifs
          · exact Ext'.pure
          · exact ext_valueConstraints
      obtain ⟨i1, l1, n1, q1⟩ := valueLits_spec he.tt (cnt := cnt) (v := v) (by have := hcnt (v, n) (List.mem_cons_self ..); dsimp only at this; omega) h1 hi hp (gr.respects hr) (gr.clauses hc) hx
      cases o with
      | none =>
        obtain ⟨rfl, rfl⟩ := pure_iff.mp h
        exact ⟨i1, fun hb => by cases hb⟩
      | some ws =>
        obtain ⟨u, W2, h2, hA⟩ := SM.bind_ok h
        obtain rfl := Reads.assertS.reads _ _ _ h2
        clear h
        obtain ⟨ret, W3, h3, h⟩ := SM.bind_ok hA
        obtain ⟨p1, p2⟩ := q1 ws rfl
        have gr3 : Grow false W3 W' := by
          refine Ext'.ext (m := false) ?_ _ _ _ h
          split_ifs
          · exact Ext'.pure
          · exact ext_valueConstraints
        have key : InvF β σ (frame W2) W3 ∧ ret = true ∧ (litTrue β lit → weightSum β ws ≤ 1) := by
          have hf : FactsHold σ W3 ∨ True := .inr trivial
          rcases hm with hm | ⟨hn, hm⟩
          · have hfm : W3.factmap = W2.factmap := by
              unfold addWeight at h3
              simp only [smok] at h3
              obtain ⟨t, W6, ⟨-, rfl⟩, f, W7, ⟨-, rfl⟩, h9⟩ := h3
              rcases h9 with ⟨-, -, rfl⟩ | ⟨-, ⟨-, -, rfl⟩ | ⟨-, u, W8, rfl, -, rfl⟩⟩ <;> rfl
            refine (tr_addWeight (F := frame W2) (σ := σ) (m := true) he h0 (fun h => by cases h) _ _ _ h3).2 ⟨i1, rfl⟩ ⟨gr3.respects hr, fun _ => ⟨gr3.all hm, ?_⟩⟩
            intro f v k p hfp
            rw [hfm] at hfp
            exact i1.good.facts f v k p hfp
          · refine (tr_addWeight (F := frame W2) (σ := σ) (m := false) he h0 (fun _ hl => ?_) _ _ _ h3).2 ⟨i1, rfl⟩ ⟨gr3.respects hr, fun h => by cases h⟩
            rw [p2 hn]
            exact_mod_cast hm hl v
        have hl3 : W3.nextLit = W2.nextLit ∧ W3.vars = W2.vars := by
          unfold addWeight at h3
          simp only [smok] at h3
          obtain ⟨t, W6, ⟨-, rfl⟩, f, W7, ⟨-, rfl⟩, h9⟩ := h3
          rcases h9 with ⟨-, -, rfl⟩ | ⟨-, ⟨-, -, rfl⟩ | ⟨-, u, W8, rfl, -, rfl⟩⟩ <;> exact ⟨rfl, rfl⟩
        obtain ⟨k1, k2, k3⟩ := key
        subst k2
        rw [if_neg (by simp)] at h
        obtain ⟨g1, g2⟩ := valueConstraints_spec he h0 hx hcnt' h k1.1 (by rw [hl3.1]; omega) hr hc (hm.imp_right (fun hh => ⟨fun w ws a b hw => n1 hh.1 w ws a b (by rw [← hl3.2]; exact hw), hh.2⟩))
        refine ⟨g1, fun hb hl p hp hn => ?_⟩
        rcases List.mem_cons.mp hp with rfl | hp
        · have := k3 hl
          show (es.map (termVal σ)).count v ≤ 1
          omega
        · exact g2 hb hl p hp hn

end Clingcon
