import Verif.Proof.DistinctTranslate
import Verif.Proof.TranslateFrame
import Verif.Proof.Links

/-! The translation of distinct constraints: representation of terms and new literals. -/
set_option linter.unusedSimpArgs false
namespace Clingcon
open Spec

variable {β : Nat → Bool} {σ : Nat → Int} {cc : CC} {tc : TConf} {W W' : World} {m : Bool} {lo up : Nat → Int} {n : Nat}

/-! ### Domains of all terms -/

/-- The recorded bounds of terms are exact. -/
def BoundsOk (lo up : Nat → Int) (es : List (CoVarVec × Int)) (as : List (Int × Int)) : Prop :=
  ∀ (i : Nat) e, es[i]? = some e → as[i]? = some (leastSum lo up e.1 + e.2, greatestSum lo up e.1 + e.2)

theorem BoundsOk.cons {e : CoVarVec × Int} {es : List (CoVarVec × Int)} {a : Int × Int} {as : List (Int × Int)} (h : BoundsOk lo up (e :: es) (a :: as)) :
    a = (leastSum lo up e.1 + e.2, greatestSum lo up e.1 + e.2) ∧ BoundsOk lo up es as := by
  refine ⟨?_, fun i e' he => ?_⟩
  · have := h 0 e rfl
    injection this
  · exact h (i + 1) e' he

/-- A domain of a term. -/
structure DomOk (n : Nat) (lo up : Nat → Int) (e : CoVarVec × Int) (d : IntervalSet) : Prop where
  canon : Canonical d
  vars : ∀ x ∈ e.1, x.2 < n
  all : ∀ σ, Within lo up σ e.1 → termVal σ e ∈ covered d
  const : e.1 = [] → ∀ v ∈ covered d, v = e.2
  single : ∀ co x, e.1 = [(co, x)] → ∀ v ∈ covered d, co ∣ v - e.2

theorem termDomain_ok {e : CoVarVec × Int} {d : IntervalSet} (h : termDomain e.1 (leastSum (loF (frame W)) (upF (frame W)) e.1 + e.2) W = .ok (d, W')) :
    DomOk W.vars.length (loF (frame W)) (upF (frame W)) e d := by
  refine ⟨(termDomain_complete (σ := fun _ => 0) h).1, (termDomain_complete (σ := fun _ => 0) h).2.1, fun σ hw => (termDomain_complete h).2.2 hw, ?_, ?_⟩
  · intro he v hv
    rw [he] at h
    have := termDomain_const h hv
    simpa [leastSum] using this
  · intro co x he v hv
    rw [he] at h
    exact termDomain_single h hv

theorem termDomains_ok : ∀ {es : List (CoVarVec × Int)} {as : List (Int × Int)} {ds : List IntervalSet}, termDomains es as W = .ok (ds, W') →
    BoundsOk (loF (frame W)) (upF (frame W)) es as → W' = W ∧ List.Forall₂ (DomOk W.vars.length (loF (frame W)) (upF (frame W))) es ds := by
  intro es
  induction es with
  | nil =>
    intro as ds h _
    obtain ⟨rfl, rfl⟩ := pure_iff.mp h
    exact ⟨rfl, .nil⟩
  | cons e es ih =>
    intro as ds h ha
    cases as with
    | nil => cases h
    | cons a as =>
      obtain ⟨rfl, hb⟩ := ha.cons
      unfold termDomains at h
      obtain ⟨d, W1, h1, hA⟩ := SM.bind_ok h
      clear h
      obtain rfl := reads_termDomain.reads _ _ _ h1
      obtain ⟨ds', W2, h2, h3⟩ := SM.bind_ok hA
      obtain ⟨rfl, rfl⟩ := pure_iff.mp h3
      obtain ⟨rfl, g⟩ := ih h2 hb
      exact ⟨rfl, .cons (termDomain_ok h1) g⟩

/-! ### Representation of terms -/

/-- Variables without order literals were added. -/
structure Appended (W W' : World) : Prop where
  vars : ∃ extra, W'.vars = W.vars ++ extra ∧ ∀ vs ∈ extra, vs.with = [] ∧ vs.WF
  log : W'.log = W.log
  next : W'.nextLit = W.nextLit
  facts : W'.factmap = W.factmap

theorem Appended.refl : Appended W W := ⟨⟨[], by simp, by simp⟩, rfl, rfl, rfl⟩
theorem Appended.trans {W'' : World} (h : Appended W W') (h' : Appended W' W'') : Appended W W'' := by
  obtain ⟨⟨x, e, p⟩, a, b, c⟩ := h
  obtain ⟨⟨x', e', p'⟩, a', b', c'⟩ := h'
  refine ⟨⟨x ++ x', by rw [e', e, List.append_assoc], fun vs hv => ?_⟩, a'.trans a, b'.trans b, c'.trans c⟩
  rcases List.mem_append.mp hv with hv | hv
  · exact p _ hv
  · exact p' _ hv
theorem Appended.len (h : Appended W W') : W.vars.length ≤ W'.vars.length := by
  obtain ⟨⟨x, e, p⟩, a, b, c⟩ := h
  rw [e, List.length_append]; omega
theorem Appended.get (h : Appended W W') {v : Nat} {vs : VarState} (hv : W'.vars[v]? = some vs) : W.vars[v]? = some vs ∨ (vs.with = [] ∧ vs.WF) := by
  obtain ⟨⟨x, e, p⟩, a, b, c⟩ := h
  rw [e, List.getElem?_append] at hv
  split_ifs at hv
  · exact .inl hv
  · exact .inr (p _ (List.mem_of_getElem? hv))
theorem Appended.noFact (h : Appended W W') (hn : NoFact W) : NoFact W' := by
  intro v vs k l hv hm
  rcases h.get hv with hv | ⟨he, -⟩
  · exact hn v vs k l hv hm
  · rw [he] at hm; cases hm
theorem Appended.tabOk (h : Appended W W') (hn : TabOk W) : TabOk W' := by
  refine ⟨by rw [h.next]; exact hn.pos, fun v vs k l hv hm => ?_⟩
  rw [h.next]
  rcases h.get hv with hv | ⟨he, -⟩
  · exact hn.below v vs k l hv hm
  · rw [he] at hm; cases hm
theorem Appended.wf (h : Appended W W') (hn : AllWF W) : AllWF W' := by
  intro v vs hv
  rcases h.get hv with hv | ⟨-, he⟩
  · exact hn v vs hv
  · exact he

theorem addVar_appended {a b : Int} {v : Nat} (h : addVar a b W = .ok (v, W')) : Appended W W' ∧ v = W.vars.length ∧ W'.vars.length = W.vars.length + 1 := by
  unfold addVar at h
  injection h with h
  obtain ⟨rfl, rfl⟩ := Prod.mk.inj h
  refine ⟨⟨⟨_, rfl, ?_⟩, rfl, rfl, rfl⟩, rfl, by simp⟩
  intro vs hv
  rw [List.mem_singleton] at hv
  subst hv
  exact ⟨rfl, List.Pairwise.nil, fun p hp => by cases hp⟩

theorem wsum_local {σ' : Nat → Int} {es : List (Int × Nat)} (h : ∀ e ∈ es, σ' e.2 = σ e.2) : wsum σ' es = wsum σ es := by
  unfold wsum
  congr 1
  exact List.map_congr_left (fun e he => by rw [h e he])

/-- A term lies between its bounds. -/
theorem term_between {e : CoVarVec × Int} (h : Within lo up σ e.1) : leastSum lo up e.1 + e.2 ≤ termVal σ e ∧ termVal σ e ≤ greatestSum lo up e.1 + e.2 := by
  have h1 := devSum_nonneg h
  have h2 := devSum_le h
  rw [rngSum_eq, devSum_eq] at h2
  rw [devSum_eq] at h1
  unfold termVal
  omega

/-- The sorting of elements keeps the elements. -/
def SortOk (tc : TConf) : Prop := ∀ l, (tc.sort l).Perm l

theorem rep_sums {es : CoVarVec} {v : Nat} {f : Int} (hs : SortOk tc) :
    ((∀ c ∈ [Constr.sum TRUE_LIT (-f) (tc.sort ((-1, v) :: es)), .sum TRUE_LIT f (tc.sort (((-1, v) :: es).map (fun p => (-p.1, p.2))))], conHolds σ none c) ↔ σ v = wsum σ es + f) := by
  simp only [List.mem_cons, List.not_mem_nil, or_false, forall_eq_or_imp, forall_eq, conHolds]
  rw [wsum_perm (hs _), wsum_perm (hs _), wsum_negAll, Spec.wsum_cons]
  dsimp only
  constructor
  · rintro ⟨h1, h2⟩; omega
  · intro h; constructor <;> omega

theorem termRep_ok {e : CoVarVec × Int} {d : IntervalSet} {p : DiffElem × List Constr} (hs : SortOk tc) (hd : DomOk n lo up e d) (hn : n ≤ W.vars.length)
    (h : termRep tc e (leastSum lo up e.1 + e.2, greatestSum lo up e.1 + e.2) W = .ok (p, W')) :
    Appended W W' ∧ (∀ (β : Nat → Bool) (σ : Nat → Int) (cnt : Int → Nat), Inv β σ W → Within lo up σ e.1 → (∀ x ∈ e.1, x.1 ≠ 0) → W'.vars.length ≤ INVALID_VAR →
      (∀ c ∈ p.2, conHolds σ none c) → Inv β σ W' ∧ RepOk σ cnt e d p.1) ∧
    (∀ σ : Nat → Int, ∃ σ' : Nat → Int, (∀ v < W.vars.length, σ' v = σ v) ∧ ∀ c ∈ p.2, conHolds σ' none c) ∧
    (∀ σ σ' : Nat → Int, (∀ v < W'.vars.length, σ' v = σ v) → (∀ c ∈ p.2, conHolds σ none c) → ∀ c ∈ p.2, conHolds σ' none c) := by
  obtain ⟨ev, ef⟩ := e
  unfold termRep at h
  dsimp only at h
  match ev, hd, h with
  | [(co, x)], hd, h =>
    obtain ⟨rfl, rfl⟩ := pure_iff.mp h
    refine ⟨.refl, fun β σ cnt hi hw hc hl _ => ⟨hi, ?_, ?_⟩, fun σ => ⟨σ, fun _ _ => rfl, fun c hc => by cases hc⟩, fun _ _ _ _ c hc => by cases hc⟩
    · intro hx
      have := hd.vars (co, x) (by simp)
      dsimp only at hx this
      omega
    · intro _
      refine ⟨hc (co, x) (by simp), ?_, hd.single co x rfl⟩
      unfold termVal
      rw [Spec.wsum_cons, Spec.wsum_nil]; dsimp only; ring
  | e1 :: e2 :: es, hd, h =>
    obtain ⟨v, W1, h1, h2⟩ := SM.bind_ok h
    obtain ⟨rfl, rfl⟩ := pure_iff.mp h2
    obtain ⟨g1, rfl, g2⟩ := addVar_appended h1
    have hloc : ∀ σ σ' : Nat → Int, (∀ v < W.vars.length, σ' v = σ v) → wsum σ' (e1 :: e2 :: es) = wsum σ (e1 :: e2 :: es) := by
      intro σ σ' hh
      refine wsum_local (fun x hx => hh _ ?_)
      have := hd.vars x hx
      omega
    refine ⟨g1, fun β σ cnt hi hw hc hl hh => ?_, fun σ => ?_, fun σ σ' h1 h2 => ?_⟩
    · have hv : σ W.vars.length = wsum σ (e1 :: e2 :: es) + ef := (rep_sums hs).mp hh
      have hb := term_between hw
      unfold termVal at hb
      dsimp only at hb
      refine ⟨(hi.addVar (by omega) (by omega) h1).1, ?_, ?_⟩
      · intro hx; dsimp only at hx; omega
      · intro _
        refine ⟨one_ne_zero, ?_, fun v _ => one_dvd _⟩
        unfold termVal
        dsimp only; omega
    · refine ⟨fun v => if v = W.vars.length then wsum σ (e1 :: e2 :: es) + ef else σ v, fun v hv => if_neg (by omega), (rep_sums hs).mpr ?_⟩
      rw [hloc σ _ (fun v hv => if_neg (by omega)), if_pos rfl]
    · have := (rep_sums hs).mp h2
      refine (rep_sums hs).mpr ?_
      rw [hloc σ σ' (fun v hv => h1 v (by omega)), h1 _ (by omega)]
      exact this
  | [], hd, h => cases h

theorem any_false {l : List Int} {c : Int → Nat} (h : l.any (fun v => decide (c v > 1)) = false) : ∀ v ∈ l, ¬ 1 < c v := by
  intro v hv h1
  have := List.any_eq_false.mp h v hv
  exact this (by simpa using h1)

theorem termVars_ok {counts : List (Int × Nat)} (hs : SortOk tc) : ∀ {es : List (CoVarVec × Int)} {as : List (Int × Int)} {ds : List IntervalSet} {W W' : World} {p : List DiffElem × List Constr},
    termVars tc counts es as ds W = .ok (p, W') → BoundsOk lo up es as → List.Forall₂ (DomOk n lo up) es ds → n ≤ W.vars.length →
    Appended W W' ∧ (∀ (β : Nat → Bool) (σ : Nat → Int), Inv β σ W → (∀ e ∈ es, Within lo up σ e.1) → (∀ e ∈ es, ∀ x ∈ e.1, x.1 ≠ 0) → W'.vars.length ≤ INVALID_VAR →
      (∀ c ∈ p.2, conHolds σ none c) → Inv β σ W' ∧ Reps σ (countOf counts) es ds p.1) ∧
    (∀ σ : Nat → Int, ∃ σ' : Nat → Int, (∀ v < W.vars.length, σ' v = σ v) ∧ ∀ c ∈ p.2, conHolds σ' none c) := by
  intro es
  induction es with
  | nil =>
    intro as ds W W' p h ha hd hn
    cases hd
    obtain ⟨rfl, rfl⟩ := pure_iff.mp h
    exact ⟨.refl, fun β σ hi _ _ _ _ => ⟨hi, trivial⟩, fun σ => ⟨σ, fun _ _ => rfl, fun c hc => by cases hc⟩⟩
  | cons e es ih =>
    intro as ds W W' p h ha hd hn
    cases hd with
    | @cons _ d _ ds hd0 hd =>
    cases as with
    | nil => cases h
    | cons a as =>
    obtain ⟨rfl, hb⟩ := ha.cons
    unfold termVars at h
    split_ifs at h with hc
    · obtain ⟨r, W1, h1, h⟩ := SM.bind_ok h
      obtain ⟨q, W2, h2, h⟩ := SM.bind_ok h
      obtain ⟨rfl, rfl⟩ := pure_iff.mp h
      obtain ⟨a1, b1, c1, d1⟩ := termRep_ok hs hd0 hn h1
      obtain ⟨a2, b2, c2⟩ := ih h2 hb hd (hn.trans a1.len)
      refine ⟨a1.trans a2, fun β σ hi hw hne hl hh => ?_, fun σ => ?_⟩
      · obtain ⟨i1, r1⟩ := b1 β σ (countOf counts) hi (hw e (by simp)) (hne e (by simp)) (a2.len.trans hl) (fun c hc => hh c (List.mem_append_left _ hc))
        obtain ⟨i2, r2⟩ := b2 β σ i1 (fun e he => hw e (by simp [he])) (fun e he => hne e (by simp [he])) hl (fun c hc => hh c (List.mem_append_right _ hc))
        exact ⟨i2, ⟨r1, hd0.canon, hd0.all σ (hw e (by simp))⟩, r2⟩
      · obtain ⟨σ1, e1, e2⟩ := c1 σ
        obtain ⟨σ2, e3, e4⟩ := c2 σ1
        refine ⟨σ2, fun v hv => (e3 v (by have := a1.len; omega)).trans (e1 v hv), fun c hc => ?_⟩
        rcases List.mem_append.mp hc with hc | hc
        · exact d1 σ1 σ2 e3 e2 c hc
        · exact e4 c hc
    · obtain ⟨q, W2, h2, h⟩ := SM.bind_ok h
      obtain ⟨rfl, rfl⟩ := pure_iff.mp h
      obtain ⟨a2, b2, c2⟩ := ih h2 hb hd hn
      refine ⟨a2, fun β σ hi hw hne hl hh => ?_, c2⟩
      obtain ⟨i2, r2⟩ := b2 β σ hi (fun e he => hw e (by simp [he])) (fun e he => hne e (by simp [he])) hl hh
      refine ⟨i2, ⟨⟨fun _ v hv hn => ?_, fun hx => absurd rfl hx⟩, hd0.canon, hd0.all σ (hw e (by simp))⟩, r2⟩
      cases he : e.1 with
      | nil =>
        unfold termVal
        rw [he, Spec.wsum_nil, zero_add]
        exact hd0.const he v hv
      | cons x xs =>
        rw [he] at hc
        have hc : d.values.any (fun v => decide (countOf counts v > 1)) = false := by simpa using hc
        exact absurd hn (any_false hc v (IntervalSet.mem_values.mpr hv))

/-! ### The translation -/

/-- Values shared by terms are counted. -/
theorem count_le_domains {cnt : Int → Nat} (v : Int) : ∀ {es : List (CoVarVec × Int)} {ds : List IntervalSet} {rs : List DiffElem}, Reps σ cnt es ds rs →
    (es.map (termVal σ)).count v ≤ ds.countP (fun d => d.contains v)
  | [], [], [], _ => by simp
  | e :: es, d :: ds, r :: rs, ⟨⟨_, h1, h2⟩, h⟩ => by
    have := count_le_domains v h
    rw [List.map_cons, List.count_cons, List.countP_cons]
    by_cases he : termVal σ e = v
    · have hin : d.contains v = true := (IntervalSet.contains_iff h1).mpr (he ▸ h2)
      rw [if_pos hin]
      split_ifs <;> omega
    · rw [if_neg (c := (termVal σ e == v) = true) (by simpa using he)]
      omega

theorem doms_canon {es : List (CoVarVec × Int)} {ds : List IntervalSet} (h : List.Forall₂ (DomOk n lo up) es ds) : ∀ d ∈ ds, Canonical d := by
  induction h with
  | nil => intro d hd; cases hd
  | cons h _ ih =>
    intro d hd
    rcases List.mem_cons.mp hd with rfl | hd
    · exact h.canon
    · exact ih d hd

theorem len_of_frame (h : frame W' = frame W) : W'.vars.length = W.vars.length := by
  have := congrArg (fun F => F.1.length) h
  simpa [frame] using this

theorem distinctTranslate_ok {c : CState} {lit : Int} {es : List (CoVarVec × Int)} {q : (Bool × Bool) × List Constr} (he : EnvSound cc β) (h0 : cc.level = 0) (hs : SortOk tc)
    (hi : Inv β σ W) (hp : 1 < W.nextLit) (hb : BoundsOk (loF (frame W)) (upF (frame W)) es c.assigned) (hw : ∀ e ∈ es, Within (loF (frame W)) (upF (frame W)) σ e.1)
    (hne : ∀ e ∈ es, ∀ x ∈ e.1, x.1 ≠ 0) (h : distinctTranslate cc tc c lit es W = .ok (q, W')) (hl : W'.vars.length ≤ INVALID_VAR)
    (hadd : ∀ c ∈ q.2, conHolds σ none c) (hr : Respects β σ W'.log) (hc : ClausesHold β W'.log)
    (hm : AllHold β W'.log ∨ NoFact W ∧ (litTrue β lit → conHolds σ none (.distinct lit es))) :
    Inv β σ W' ∧ (q.1 = (true, true) → litTrue β lit → conHolds σ none (.distinct lit es)) := by
  have hnd : conHolds σ none (.distinct lit es) ↔ (es.map (termVal σ)).Nodup := Iff.rfl
  unfold distinctTranslate at h
  split_ifs at h with hest
  · obtain ⟨rfl, rfl⟩ := pure_iff.mp h
    exact ⟨hi, fun hx => by cases hx⟩
  obtain ⟨ds, W1, h1, hA⟩ := SM.bind_ok h
  clear h
  obtain ⟨rfl, hd⟩ := termDomains_ok h1 hb
  obtain ⟨p, W2, h2, hB⟩ := SM.bind_ok hA
  clear hA
  obtain ⟨ret, W3, h3, hC⟩ := SM.bind_ok hB
  obtain ⟨rfl, rfl⟩ := pure_iff.mp hC
  clear hB hC
  obtain ⟨a1, b1, -⟩ := termVars_ok hs h2 hb hd le_rfl
  have hfr : W'.vars.length = W2.vars.length := len_of_frame (fr_valueConstraints.fr _ _ _ h3)
  obtain ⟨i2, hreps⟩ := b1 β σ hi hw hne (by omega) hadd
  obtain ⟨k1, k2⟩ := countAll_spec (doms_canon hd)
  obtain ⟨g1, g2⟩ := valueConstraints_spec he h0 hreps (fun p hp => countOf_mem k1 hp) h3 i2 (by rw [a1.next]; exact hp) hr hc
    (hm.imp_right (fun hh => ⟨a1.noFact hh.1, fun hl v => List.nodup_iff_count_le_one.mp (hnd.mp (hh.2 hl)) v⟩))
  refine ⟨g1, fun hx hl => hnd.mpr (List.nodup_iff_count_le_one.mpr (fun v => ?_))⟩
  by_contra hcon
  have h1 := count_le_domains v hreps
  have h2 : 0 < countOf (countAll ds) v := by rw [k2]; omega
  have := g2 (congrArg Prod.fst hx) hl _ (mem_of_countOf h2) (by show 1 < countOf (countAll ds) v; rw [k2]; omega)
  exact hcon this

/-! ### New literals -/

/-- New literals can be given truth values such that order literals have their meaning and clauses hold. -/
def Extends (σ : Nat → Int) (W W' : World) : Prop :=
  AllWF W → TabOk W → AllWF W' ∧ TabOk W' ∧ W.nextLit ≤ W'.nextLit ∧ ∃ new, W'.log = new ++ W.log ∧
    (∀ l v k, SEv.order l v k ∈ new → |l| < W'.nextLit) ∧ (∀ c, SEv.clause c ∈ new → ∀ l ∈ c, |l| < W'.nextLit) ∧
    ∀ β, litTrue β 1 → ∃ β', agreeBelow W.nextLit β β' ∧ Respects β' σ new ∧ ClausesHold β' new

theorem ClausesHold.congr {n : Int} {β β' : Nat → Bool} {log : List SEv} (h : agreeBelow n β β')
    (hl : ∀ c, SEv.clause c ∈ log → ∀ l ∈ c, |l| < n) (hr : ClausesHold β log) : ClausesHold β' log := by
  intro c hc
  obtain ⟨l, h1, h2⟩ := hr c hc
  exact ⟨l, h1, (litTrue_congr h (hl c hc l h1)).mp h2⟩

theorem Extends.refl : Extends σ W W := fun h1 h2 => ⟨h1, h2, le_rfl, [], rfl, by simp, by simp, fun β _ => ⟨β, fun _ _ => rfl, fun _ _ _ h => (by cases h), fun _ h => (by cases h)⟩⟩

theorem Extends.trans {W'' : World} (h : Extends σ W W') (h' : Extends σ W' W'') : Extends σ W W'' := by
  intro w1 t1
  obtain ⟨w2, t2, l1, n1, e1, o1, c1, x1⟩ := h w1 t1
  obtain ⟨w3, t3, l2, n2, e2, o2, c2, x2⟩ := h' w2 t2
  refine ⟨w3, t3, l1.trans l2, n2 ++ n1, by rw [e2, e1, List.append_assoc], ?_, ?_, fun β hβ => ?_⟩
  · intro l v k hm
    rcases List.mem_append.mp hm with hm | hm
    · exact o2 l v k hm
    · exact lt_of_lt_of_le (o1 l v k hm) l2
  · intro c hm l hl
    rcases List.mem_append.mp hm with hm | hm
    · exact c2 c hm l hl
    · exact lt_of_lt_of_le (c1 c hm l hl) l2
  · obtain ⟨β1, a1, r1, k1⟩ := x1 β hβ
    obtain ⟨β2, a2, r2, k2⟩ := x2 β1 ((litTrue_congr a1 (by simpa using t1.pos)).mp hβ)
    refine ⟨β2, agree_trans a1 (agree_mono a2 l1), fun l v k hm => ?_, fun c hm => ?_⟩
    · rcases List.mem_append.mp hm with hm | hm
      · exact r2 l v k hm
      · exact Respects.congr a2 o1 r1 l v k hm
    · rcases List.mem_append.mp hm with hm | hm
      · exact k2 c hm
      · exact ClausesHold.congr a2 c1 k1 c hm

theorem Extends.ev {W' : World} {e : SEv} (h1 : W'.vars = W.vars) (h2 : W'.nextLit = W.nextLit) (h3 : W'.log = e :: W.log)
    (h4 : ∀ l v k, e ≠ .order l v k) (h5 : ∀ c, e ≠ .clause c) : Extends σ W W' := by
  intro w t
  refine ⟨fun v vs hv => w v vs (by rw [← h1]; exact hv), ⟨by rw [h2]; exact t.pos, fun v vs k l hv hm => by rw [h2]; exact t.below v vs k l (by rw [← h1]; exact hv) hm⟩, h2.ge,
    [e], h3, ?_, ?_, fun β _ => ⟨β, fun _ _ => rfl, ?_, ?_⟩⟩
  · intro l v k hm; rw [List.mem_singleton] at hm; exact absurd hm.symm (h4 l v k)
  · intro c hm; rw [List.mem_singleton] at hm; exact absurd hm.symm (h5 c)
  · intro l v k hm; rw [List.mem_singleton] at hm; exact absurd hm.symm (h4 l v k)
  · intro c hm; rw [List.mem_singleton] at hm; exact absurd hm.symm (h5 c)

theorem Extends.app (h : Appended W W') : Extends σ W W' := fun h1 h2 => ⟨h.wf h1, h.tabOk h2, h.next.ge, [], h.log, by simp, by simp,
  fun β _ => ⟨β, fun _ _ => rfl, fun _ _ _ h => (by cases h), fun _ h => (by cases h)⟩⟩

theorem GotLit.extends {v : Nat} {k l : Int} (h : GotLit W v k l W') (hw : AllWF W') : Extends σ W W' := by
  intro w t
  obtain ⟨t', hl'⟩ := h.tabOk t
  refine ⟨hw, t', h.lit, ?_⟩
  have triv : W'.log = W.log → ∃ new, W'.log = new ++ W.log ∧
    (∀ l v k, SEv.order l v k ∈ new → |l| < W'.nextLit) ∧ (∀ c, SEv.clause c ∈ new → ∀ l ∈ c, |l| < W'.nextLit) ∧
    ∀ β, litTrue β 1 → ∃ β', agreeBelow W.nextLit β β' ∧ Respects β' σ new ∧ ClausesHold β' new :=
    fun e => ⟨[], e, by simp, by simp, fun β _ => ⟨β, fun _ _ => rfl, fun _ _ _ h => (by cases h), fun _ h => (by cases h)⟩⟩
  cases h with
  | low => exact triv rfl
  | high => exact triv rfl
  | old => exact triv rfl
  | new vs vs' l hv h1 h2 hm hs hl =>
    refine ⟨_ :: _ :: _ :: [_], rfl, ?_, ?_, fun β _ => ?_⟩
    · intro l v k hm
      simp only [List.mem_cons, reduceCtorEq, SEv.order.injEq, List.not_mem_nil, or_false, false_or] at hm
      obtain ⟨rfl, rfl, rfl⟩ := hm
      exact hl'
    · intro c hm
      simp only [List.mem_cons, reduceCtorEq, List.not_mem_nil, or_false] at hm
    · obtain ⟨β', g1, g2⟩ := extend_one (by have := t.pos; omega) β l hl (σ v ≤ k)
      refine ⟨β', g1, fun l v k hm => ?_, fun c hm => ?_⟩
      · simp only [List.mem_cons, reduceCtorEq, SEv.order.injEq, List.not_mem_nil, or_false, false_or] at hm
        obtain ⟨rfl, rfl, rfl⟩ := hm
        exact g2
      · simp only [List.mem_cons, reduceCtorEq, List.not_mem_nil, or_false] at hm

/-- A new literal is defined by a conjunction; possibly only some of the clauses are posted. -/
theorem extends_and {a b : Int} {cs : List SEv} (ha : |a| < W.nextLit) (hb : |b| < W.nextLit) (h1 : W'.vars = W.vars) (h2 : W'.nextLit = W.nextLit + 1)
    (h3 : W'.log = cs ++ .lit W.nextLit :: W.log) (ha0 : a ≠ 0) (hb0 : b ≠ 0)
    (h4 : ∀ e ∈ cs, e = .clause [-a, -b, W.nextLit] ∨ e = .clause [a, -W.nextLit] ∨ e = .clause [b, -W.nextLit]) : Extends σ W W' := by
  intro w t
  have hp := t.pos
  refine ⟨fun v vs hv => w v vs (by rw [← h1]; exact hv), ⟨by omega, fun v vs k l hv hm => by have := t.below v vs k l (by rw [← h1]; exact hv) hm; omega⟩, by omega,
    cs ++ [.lit W.nextLit], by rw [h3]; simp, ?_, ?_, fun β _ => ?_⟩
  · intro l v k hm
    simp only [List.mem_append, List.mem_singleton, reduceCtorEq, or_false] at hm
    rcases h4 _ hm with h | h | h <;> cases h
  · intro c hm
    simp only [List.mem_append, List.mem_singleton, reduceCtorEq, or_false] at hm
    have habs : |W.nextLit| = W.nextLit := abs_of_pos (by omega)
    rcases h4 _ hm with h | h | h <;> injection h with h <;> subst h <;> simp only [List.mem_cons, List.not_mem_nil, or_false] <;> rintro l (rfl | rfl | rfl) <;>
      (try simp only [abs_neg, habs]) <;> omega
  · obtain ⟨β', g1, g2⟩ := extend_one (by omega) β W.nextLit (.inl rfl) (litTrue β a ∧ litTrue β b)
    refine ⟨β', g1, fun l v k hm => ?_, fun c hm => ?_⟩
    · simp only [List.mem_append, List.mem_singleton, reduceCtorEq, or_false] at hm
      rcases h4 _ hm with h | h | h <;> cases h
    · rw [litTrue_congr g1 ha, litTrue_congr g1 hb] at g2
      have hz : W.nextLit ≠ 0 := by omega
      simp only [List.mem_append, List.mem_singleton, reduceCtorEq, or_false] at hm
      rcases h4 _ hm with h | h | h <;> injection h with h <;> subst h <;>
        simp only [List.mem_cons, List.not_mem_nil, or_false, exists_eq_or_imp, exists_eq_left, Spec.litTrue_neg _ _ ha0, Spec.litTrue_neg _ _ hb0, Spec.litTrue_neg _ _ hz, g2] <;> tauto

theorem GotLit.wf {v : Nat} {k l : Int} (h : GotLit W v k l W') (hw : AllWF W) (hp : 1 < W.nextLit) : AllWF W' ∧ l ≠ 0 := by
  cases h with
  | low => exact ⟨hw, by decide⟩
  | high => exact ⟨hw, by decide⟩
  | old vs vs' l hv h1 h2 hm hs =>
    refine ⟨fun w ws hws => ?_, VarState.with_nonzero (hw _ _ hv) hm⟩
    rcases get_set hws with ⟨rfl, rfl⟩ | hws
    · exact hs.wf
    · exact hw _ _ hws
  | new vs vs' l hv h1 h2 hm hs hl =>
    refine ⟨fun w ws hws => ?_, by rcases hl with rfl | rfl <;> omega⟩
    rcases get_set hws with ⟨rfl, rfl⟩ | hws
    · exact hs.wf
    · exact hw _ _ hws

theorem extends_equalLit {e : DiffElem} {v : Int} {o : Option Int} (h : equalLit cc e v W = .ok (o, W')) : Extends σ W W' := by
  unfold equalLit at h
  split_ifs at h with hvar
  swap
  · obtain ⟨-, rfl⟩ := pure_iff.mp h; exact .refl
  dsimp only at h
  obtain ⟨a, W1, h1, hA⟩ := SM.bind_ok h
  clear h
  obtain ⟨b', W2, h2, h⟩ := SM.bind_ok hA
  clear hA
  intro w t
  have gl1 := getLiteral_eff w (by have := t.pos; omega) h1
  obtain ⟨w1, z1⟩ := gl1.wf w t.pos
  obtain ⟨t1, b1⟩ := gl1.tabOk t
  have gl2 := getLiteral_eff w1 (by have := t1.pos; omega) h2
  obtain ⟨w2, z2⟩ := gl2.wf w1 (gl1.tabOk t).1.pos
  obtain ⟨t2, b2⟩ := gl2.tabOk t1
  have x12 : Extends σ W W2 := (gl1.extends w1).trans (gl2.extends w2)
  refine Extends.trans x12 ?_ w t
  split_ifs at h with c1 c2
  · obtain ⟨-, rfl⟩ := pure_iff.mp h; exact .refl
  · obtain ⟨-, rfl⟩ := pure_iff.mp h; exact .refl
  obtain ⟨lit, W3, h3, hA⟩ := SM.bind_ok h
  obtain ⟨rfl, rfl⟩ := newLit_iff.mp h3
  clear h
  obtain ⟨r1, W4, h4, hB⟩ := SM.bind_ok hA
  obtain ⟨-, rfl⟩ := addClause_iff.mp h4
  clear hA
  have hab : |a| < W2.nextLit := lt_of_lt_of_le b1 gl2.lit
  have hbb : |-b'| < W2.nextLit := by rw [abs_neg]; exact b2
  have fin : ∀ {cs : List SEv}, W'.vars = W2.vars → W'.nextLit = W2.nextLit + 1 → W'.log = cs ++ .lit W2.nextLit :: W2.log →
      (∀ e ∈ cs, e = .clause [-a, - -b', W2.nextLit] ∨ e = .clause [a, -W2.nextLit] ∨ e = .clause [-b', -W2.nextLit]) → Extends σ W2 W' :=
    fun g1 g2 g3 g4 => extends_and hab hbb g1 g2 g3 z1 (neg_ne_zero.mpr z2) g4
  split_ifs at hB with c3
  · obtain ⟨-, rfl⟩ := pure_iff.mp hB
    exact fin rfl rfl (cs := [_]) rfl (by simp)
  obtain ⟨r2, W5, h5, hC⟩ := SM.bind_ok hB
  obtain ⟨-, rfl⟩ := addClause_iff.mp h5
  clear hB
  split_ifs at hC with c4
  · obtain ⟨-, rfl⟩ := pure_iff.mp hC
    exact fin rfl rfl (cs := [_, _]) rfl (by simp)
  obtain ⟨r3, W6, h6, hD⟩ := SM.bind_ok hC
  obtain ⟨-, rfl⟩ := addClause_iff.mp h6
  clear hC
  split_ifs at hD <;> obtain ⟨-, rfl⟩ := pure_iff.mp hD <;> exact fin rfl rfl (cs := [_, _, _]) rfl (by simp)

theorem extends_valueLits {v : Int} : ∀ {ds : List IntervalSet} {rs : List DiffElem} {W W' : World} {o : Option (List (Int × Int))},
    valueLits cc v ds rs W = .ok (o, W') → Extends σ W W'
  | [], _, W, W', o, h => by obtain ⟨-, rfl⟩ := pure_iff.mp h; exact .refl
  | _ :: _, [], W, W', o, h => by cases h
  | d :: ds, r :: rs, W, W', o, h => by
    unfold valueLits at h
    split_ifs at h
    · obtain ⟨l, W1, h1, hA⟩ := SM.bind_ok h
      refine (extends_equalLit h1).trans ?_
      cases l with
      | none => obtain ⟨-, rfl⟩ := pure_iff.mp hA; exact .refl
      | some l =>
        obtain ⟨w, W2, h2, hB⟩ := SM.bind_ok hA
        refine (extends_valueLits h2).trans ?_
        cases w <;> obtain ⟨-, rfl⟩ := pure_iff.mp hB <;> exact .refl
    · exact extends_valueLits h

theorem extends_addWeight {lit b t : Int} {ws : List (Int × Int)} {r : Bool} (h : addWeight cc lit ws b t W = .ok (r, W')) : Extends σ W W' := by
  unfold addWeight at h
  simp only [smok] at h
  obtain ⟨t, W6, ⟨-, rfl⟩, f, W7, ⟨-, rfl⟩, h9⟩ := h
  rcases h9 with ⟨-, -, rfl⟩ | ⟨-, ⟨-, -, rfl⟩ | ⟨-, u, W8, rfl, -, rfl⟩⟩
  · exact .refl
  · exact .refl
  · exact .ev rfl rfl rfl (fun _ _ _ h => by cases h) (fun _ h => by cases h)

theorem extends_valueConstraints {lit : Int} {ds : List IntervalSet} {rs : List DiffElem} : ∀ {cs : List (Int × Nat)} {W W' : World} {b : Bool},
    valueConstraints cc lit ds rs cs W = .ok (b, W') → Extends σ W W'
  | [], W, W', b, h => by obtain ⟨-, rfl⟩ := pure_iff.mp h; exact .refl
  | (v, n) :: cs, W, W', b, h => by
    unfold valueConstraints at h
    split_ifs at h
    · exact extends_valueConstraints h
    · obtain ⟨o, W1, h1, hA⟩ := SM.bind_ok h
      refine (extends_valueLits h1).trans ?_
      cases o with
      | none => obtain ⟨-, rfl⟩ := pure_iff.mp hA; exact .refl
      | some ws =>
        obtain ⟨u, W2, h2, hB⟩ := SM.bind_ok hA
        clear h hA
        obtain rfl := Reads.assertS.reads _ _ _ h2
        obtain ⟨ret, W3, h3, hC⟩ := SM.bind_ok hB
        refine (extends_addWeight h3).trans ?_
        split_ifs at hC
        · obtain ⟨-, rfl⟩ := pure_iff.mp hC; exact .refl
        · exact extends_valueConstraints hC

theorem distinctTranslate_extends {c : CState} {lit : Int} {es : List (CoVarVec × Int)} {q : (Bool × Bool) × List Constr} (hs : SortOk tc)
    (hb : BoundsOk (loF (frame W)) (upF (frame W)) es c.assigned) (h : distinctTranslate cc tc c lit es W = .ok (q, W')) :
    ∀ σ : Nat → Int, ∃ σ' : Nat → Int, (∀ v < W.vars.length, σ' v = σ v) ∧ (∀ c ∈ q.2, conHolds σ' none c) ∧ Extends σ' W W' := by
  intro σ
  unfold distinctTranslate at h
  split_ifs at h with hest
  · obtain ⟨rfl, rfl⟩ := pure_iff.mp h
    exact ⟨σ, fun _ _ => rfl, fun c hc => (by cases hc), .refl⟩
  obtain ⟨ds, W1, h1, hA⟩ := SM.bind_ok h
  clear h
  obtain ⟨rfl, hd⟩ := termDomains_ok h1 hb
  obtain ⟨p, W2, h2, hB⟩ := SM.bind_ok hA
  clear hA
  obtain ⟨ret, W3, h3, hC⟩ := SM.bind_ok hB
  obtain ⟨rfl, rfl⟩ := pure_iff.mp hC
  obtain ⟨a1, -, c1⟩ := termVars_ok hs h2 hb hd le_rfl
  obtain ⟨σ', e1, e2⟩ := c1 σ
  exact ⟨σ', e1, e2, (Extends.app a1).trans (extends_valueConstraints h3)⟩

/-- The literals of the tables are known to the Boolean solver if tables and map agree. -/
theorem tabOk_of (h : TI W) : TabOk W := by
  refine ⟨h.pos, fun v vs k l hv hm => ?_⟩
  by_cases h1 : l.natAbs = 1
  · have := h.pos
    rw [Int.abs_eq_natAbs, h1]; exact_mod_cast this
  · obtain ⟨e, he, -⟩ := h.own v vs k l hv hm h1
    have hl := (List.getElem?_eq_some_iff.mp he).1
    have := h.small
    have hz := VarState.with_nonzero (h.wf _ _ hv) hm
    unfold mapOffset at hl
    rw [Int.abs_eq_natAbs]
    omega

end Clingcon
