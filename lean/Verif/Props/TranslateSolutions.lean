import Verif.Spec.Solutions
import Verif.Proof.TranslateAll
import Verif.Props.DistinctTranslate
import Verif.Props.TranslateLoop
import Verif.Props.OrderClauses

/-! The translation of all constraints preserves the solutions: property C73. -/
namespace Clingcon.Props
open Clingcon Clingcon.Spec

variable {cc : CC} {tc : TConf} {fuel : Nat} {β : Nat → Bool} {σ : Nat → Int} {W W' : World} {n : Nat} {c : CState} {b : Bool} {added : List Constr}

/-- The invariant of the translation. -/
structure Going (W : World) : Prop where
  ti : TI W
  calm : Calm (frame W)
  cons : ∀ (n : Nat) c, W.book.cs[n]? = some c → c.alive = true → Nonzero c.con ∧ ∀ lit es, c.con = .distinct lit es → c.dirty = []

theorem going_start (hr : Reach W) (h : Translatable W) : Going W := ⟨hr.ti, ⟨hr.wi.b0 h.top, ⟨h.low, h.upp⟩⟩, h.cons⟩

theorem nonzero_added {N : Nat} {c : Constr} (h : Added N c) : Nonzero c := by
  obtain ⟨r, es, rfl, h⟩ := h
  exact ⟨by decide, fun e he => (h e he).1⟩

/-! ### Adding constraints -/

theorem add_cs {c : Constr} {W1 : World} (h : addConstraint c W = .ok (n, W1)) : ∀ (m : Nat) x, W1.book.cs[m]? = some x →
    (∃ y, W.book.cs[m]? = some y ∧ x.con = y.con ∧ x.alive = y.alive ∧ x.dirty = y.dirty) ∨ (m = n ∧ x.con = c) := by
  unfold addConstraint at h
  obtain ⟨st, Wa, h1, h2⟩ := bind_iff.mp h
  obtain ⟨rfl, s1, s2, -, -, -⟩ := initState_eff h1
  simp only [smok] at h2
  obtain ⟨W2, W3, ⟨rfl, rfl⟩, _, W4, rfl, _, W5, h5, _, W6, rfl, rfl, rfl⟩ := h2
  obtain ⟨e1, -, -, -⟩ := addVarWatches_eff h5
  have hcs : W5.book.cs = W3.book.cs ++ [st] := by rw [e1]
  have hm := markTodo_eff W5.book W3.book.cs.length
  intro m x hx
  have hlt : m < W5.book.cs.length := by rw [← hm.len]; exact (List.getElem?_eq_some_iff.mp hx).1
  obtain ⟨y, hy, f, s⟩ := hm.cs m _ (List.getElem?_eq_getElem hlt)
  have hx : (W5.book.markTodo W3.book.cs.length).cs[m]? = some x := hx
  rw [hy] at hx
  injection hx with hx
  subst hx
  have hg : W5.book.cs[m]? = some W5.book.cs[m] := List.getElem?_eq_getElem hlt
  generalize W5.book.cs[m] = z at hg f s
  rw [hcs, List.getElem?_append] at hg
  split_ifs at hg with hc
  · exact .inl ⟨z, hg, s.con, f.alive, s.dirty⟩
  · right
    have : m = W3.book.cs.length := by rw [hcs, List.length_append] at hlt; simp at hlt; omega
    subst this
    simp only [Nat.sub_self, List.getElem?_cons_zero, Option.some.injEq] at hg
    subst hg
    exact ⟨rfl, s.con.trans s1⟩

/-- The constraints in the queue. -/
def Fits (W : World) (q : List TCon) : Prop := (∀ m, TCon.old m ∈ q → Alive W m) ∧ ∀ c, TCon.new c ∈ q → Added W.vars.length c

theorem alive_iff : Alive W n ↔ ∃ c, W.book.cs[n]? = some c ∧ c.alive = true := by
  unfold Alive states
  constructor
  · rintro ⟨c, h⟩
    rw [List.getElem?_map] at h
    obtain ⟨x, hx, e⟩ := Option.map_eq_some_iff.mp h
    exact ⟨x, hx, congrArg Prod.snd e⟩
  · rintro ⟨c, h, ha⟩
    exact ⟨c.con, by rw [List.getElem?_map, h, Option.map_some, ha]⟩

theorem states_get {c : Constr} : (states W)[n]? = some (c, true) ↔ ∃ x, W.book.cs[n]? = some x ∧ x.alive = true ∧ x.con = c := by
  unfold states
  rw [List.getElem?_map]
  constructor
  · intro h
    obtain ⟨x, hx, e⟩ := Option.map_eq_some_iff.mp h
    exact ⟨x, hx, congrArg Prod.snd e, congrArg Prod.fst e⟩
  · rintro ⟨x, hx, ha, rfl⟩
    rw [hx, Option.map_some, ha]

theorem Going.add (h : Going W) {t : TCon} (hf : ∀ c, t = .new c → Added W.vars.length c) {W1 : World} (hx : t.add W = .ok (n, W1)) :
    Going W1 ∧ Sub W W1 ∧ W1.vars = W.vars ∧ W1.log = W.log := by
  have ts := (kw_add (sub_book W)).kw _ _ _ hx ⟨h.ti, .refl⟩
  refine ⟨⟨ts.1, h.calm.add hx, ?_⟩, ts.2, ?_⟩
  · cases t with
    | old m => obtain ⟨-, rfl⟩ := pure_iff.mp hx; exact h.cons
    | new c =>
      intro m x hm ha
      rcases add_cs hx m x hm with ⟨y, hy, e1, e2, e3⟩ | ⟨-, e⟩
      · rw [e1, e3]; exact h.cons m y hy (e2 ▸ ha)
      · rw [e]
        have hz := hf c rfl
        refine ⟨nonzero_added hz, fun lit es he => ?_⟩
        obtain ⟨r, es', rfl, -⟩ := hz
        cases he
  · cases t with
    | old m => obtain ⟨-, rfl⟩ := pure_iff.mp hx; exact ⟨rfl, rfl⟩
    | new c => obtain ⟨bk, rfl⟩ := addConstraint_eff hx; exact ⟨rfl, rfl⟩

/-- The constraint that is processed. -/
def conOf (W : World) : TCon → Constr → Prop
  | .old m, c => (states W)[m]? = some (c, true)
  | .new c', c => c = c'

theorem add_con {t : TCon} {W1 : World} (hx : t.add W = .ok (n, W1)) {c : Constr} (h : conOf W t c) : (states W1)[n]? = some (c, true) := by
  cases t with
  | old m => obtain ⟨rfl, rfl⟩ := pure_iff.mp hx; exact h
  | new c' =>
    obtain ⟨hn, e⟩ := states_add hx
    have h : c = c' := h
    subst h
    rw [e, hn]; simp

theorem states_prefix {t : TCon} {W1 : World} (hx : t.add W = .ok (n, W1)) {m : Nat} {c : Constr} (h : (states W)[m]? = some (c, true)) :
    (states W1)[m]? = some (c, true) := by
  cases t with
  | old m => obtain ⟨rfl, rfl⟩ := pure_iff.mp hx; exact h
  | new c' =>
    obtain ⟨hn, e⟩ := states_add hx
    rw [e, List.getElem?_append_left (List.getElem?_eq_some_iff.mp h).1]; exact h

/-! ### One constraint -/

theorem Going.one (h : Going W) (hx : translateOne cc tc fuel n W = .ok (((true, b), added), W')) : Going W' ∧ Sub W W' := by
  have ts := (kt_translateOne (sub_prim W)).kw _ _ _ hx ⟨h.ti, .refl⟩
  have hcs : W'.book.cs = W.book.cs := (keep_translateOne (cs := W.book.cs)).keep _ _ _ hx rfl
  exact ⟨⟨ts.1, (keepT_translateOne calm_keep).keep _ _ _ hx h.calm, by rw [hcs]; exact h.cons⟩, ts.2⟩

theorem Going.sums (h : Going W) (hc : W.book.cs[n]? = some c) (ha : c.alive = true) {lit rhs : Int} {es : CoVarVec} (hk : c.con = .sum lit rhs es) :
    c.lower = leastSum (loF (frame W)) (upF (frame W)) es ∧ c.upper = greatestSum (loF (frame W)) (upF (frame W)) es := by
  have := h.calm.counted hc ha
  unfold Counted Clingcon.Mid at this
  rw [hk] at this
  simpa [signSum, lowSum_eq, upSum_eq] using this

theorem Going.bounds (h : Going W) (hc : W.book.cs[n]? = some c) (ha : c.alive = true) {lit : Int} {es : List (CoVarVec × Int)} (hk : c.con = .distinct lit es) :
    BoundsOk (loF (frame W)) (upF (frame W)) es c.assigned := by
  have := h.calm.counted hc ha
  unfold Counted Clingcon.Mid at this
  rw [hk] at this
  intro i e he
  have := this.2.2.2 i e he (by rw [(h.cons n c hc ha).2 lit es hk]; exact List.not_mem_nil)
  rw [lowSum_eq, upSum_eq] at this
  exact this

theorem Going.withinSum (h : Going W) (hi : Inv β σ W) (hc : W.book.cs[n]? = some c) (ha : c.alive = true) {lit rhs : Int} {es : CoVarVec} (hk : c.con = .sum lit rhs es) :
    Within (loF (frame W)) (upF (frame W)) σ es :=
  h.calm.within hi (fun e he => h.calm.vars hc ha e (by rw [hk]; exact he))

theorem Going.withinDistinct (h : Going W) (hi : Inv β σ W) (hc : W.book.cs[n]? = some c) (ha : c.alive = true) {lit : Int} {es : List (CoVarVec × Int)}
    (hk : c.con = .distinct lit es) : ∀ e ∈ es, Within (loF (frame W)) (upF (frame W)) σ e.1 := by
  intro e he
  refine h.calm.within hi (fun x hx => ?_)
  obtain ⟨w, hw, e⟩ := distinctWatches_var (i := 0) he hx
  rw [← e]
  exact h.calm.vars hc ha w (by rw [hk]; exact hw)

theorem translateOne_minimize {adjust : Int} {es : CoVarVec} (hcs : W.book.cs[n]? = some c) (hk : c.con = .minimize adjust es) {q : (Bool × Bool) × List Constr}
    (h : translateOne cc tc fuel n W = .ok (q, W')) : q.2 = [] ∧ minimizeTranslate cc tc adjust es W = .ok (q.1, W') := by
  unfold translateOne at h
  obtain ⟨c', W1, h1, h2⟩ := SM.bind_ok h
  obtain ⟨⟨hc', -⟩, rfl⟩ := getCS_iff.mp h1
  rw [hcs] at hc'
  injection hc' with hc'
  subst hc'
  rw [hk] at h2
  obtain ⟨p, W2, h3, h4⟩ := SM.bind_ok h2
  obtain ⟨rfl, rfl⟩ := pure_iff.mp h4
  exact ⟨rfl, h3⟩

theorem translateOne_sum_added {lit rhs : Int} {es : CoVarVec} (hcs : W.book.cs[n]? = some c) (hk : c.con = .sum lit rhs es) {q : (Bool × Bool) × List Constr}
    (h : translateOne cc tc fuel n W = .ok (q, W')) : q.2 = [] := by
  unfold translateOne at h
  obtain ⟨c', W1, h1, h2⟩ := SM.bind_ok h
  obtain ⟨⟨hc', -⟩, rfl⟩ := getCS_iff.mp h1
  rw [hcs] at hc'
  injection hc' with hc'
  subst hc'
  rw [hk] at h2
  obtain ⟨p, W2, h3, h4⟩ := SM.bind_ok h2
  obtain ⟨rfl, rfl⟩ := pure_iff.mp h4
  rfl

theorem translateOne_other (hcs : W.book.cs[n]? = some c) (hk : (∃ l es, c.con = .disjoint l es) ∨ ∃ l a x y d z r, c.con = .nonlinear l a x y d z r) {q : (Bool × Bool) × List Constr}
    (h : translateOne cc tc fuel n W = .ok (q, W')) : q = ((true, false), []) ∧ W' = W := by
  unfold translateOne at h
  obtain ⟨c', W1, h1, h2⟩ := SM.bind_ok h
  obtain ⟨⟨hc', -⟩, rfl⟩ := getCS_iff.mp h1
  rw [hcs] at hc'
  injection hc' with hc'
  subst hc'
  rcases hk with ⟨l, es, hk⟩ | ⟨l, a, x, y, d, z, r, hk⟩ <;> rw [hk] at h2 <;> obtain ⟨rfl, rfl⟩ := pure_iff.mp h2 <;> exact ⟨rfl, rfl⟩

theorem one_added (hs : SortOk tc) (h : Going W) (hc : W.book.cs[n]? = some c) (ha : c.alive = true) (hx : translateOne cc tc fuel n W = .ok (((true, b), added), W')) :
    ∀ c ∈ added, Added W'.vars.length c := by
  cases hk : c.con with
  | sum lit rhs es =>
    have : added = [] := translateOne_sum_added hc hk hx
    rw [this]; intro c hc; cases hc
  | minimize a es =>
    have : added = [] := (translateOne_minimize hc hk hx).1
    rw [this]; intro c hc; cases hc
  | distinct lit es =>
    have hz := (h.cons n c hc ha).1
    rw [hk] at hz
    exact distinctTranslate_added hs (h.bounds hc ha hk) hz (translateOne_distinct hc hk hx)
  | disjoint l es =>
    have := (translateOne_other hc (.inl ⟨_, _, hk⟩) hx).1
    cases this; intro c hc; cases hc
  | nonlinear l a x y d z r =>
    have := (translateOne_other hc (.inr ⟨_, _, _, _, _, _, _, hk⟩) hx).1
    cases this; intro c hc; cases hc

/-- A constraint reported as removable follows from what was posted and the constraints added. -/
theorem one_enforced (he : EnvSound cc β) (h0 : cc.level = 0) (hs : SortOk tc) (h : Going W) (hc : W.book.cs[n]? = some c) (ha : c.alive = true)
    (hx : translateOne cc tc fuel n W = .ok (((true, true), added), W')) (hl : W'.vars.length ≤ INVALID_VAR) (hi : Inv β σ W') (hr : Respects β σ W'.log)
    (hadd : ∀ c ∈ added, conHolds σ none c) (ht : litTrue β c.con.lit) : conHolds σ none c.con := by
  have hi0 : Inv β σ W := hi.back (h.one hx).2 h.ti
  have hz := (h.cons n c hc ha).1
  cases hk : c.con with
  | sum lit rhs es =>
    rw [hk] at hz ht
    obtain ⟨g1, g2⟩ := h.sums hc ha hk
    exact ((tr_sumTranslate (m := true) he h0 hz.1 hz.2 (h.withinSum hi0 hc ha hk) g1 g2 (fun h => by cases h) W _ W' (translateOne_sum hc hk hx)).2 ⟨hi0, rfl⟩
      ⟨hr, fun _ => ⟨hi.good.posted, hi.good.facts⟩⟩).2 rfl ht
  | minimize a es => intro b hb; cases hb
  | distinct lit es =>
    rw [hk] at hz ht
    exact (distinctTranslate_ok he h0 hs hi0 h.ti.pos (h.bounds hc ha hk) (h.withinDistinct hi0 hc ha hk) hz (translateOne_distinct hc hk hx) hl hadd hr
      (fun cl hcl => hi.good.posted (.clause cl) hcl) (.inl hi.good.posted)).2 rfl ht
  | disjoint l es =>
    have := (translateOne_other hc (.inl ⟨_, _, hk⟩) hx).1
    cases this
  | nonlinear l a x y d z r =>
    have := (translateOne_other hc (.inr ⟨_, _, _, _, _, _, _, hk⟩) hx).1
    cases this

/-- What is new has its meaning. -/
structure Meant (β : Nat → Bool) (σ : Nat → Int) (c : Constr) (W : World) (added : List Constr) (W' : World) : Prop where
  added : ∀ c ∈ added, conHolds σ none c
  clauses : (∃ lit es, c = .distinct lit es) → ∀ cl, SEv.clause cl ∈ W'.log → SEv.clause cl ∈ W.log ∨ ∃ l ∈ cl, litTrue β l

/-- The translation of a constraint excludes no solutions. -/
theorem one_exact (he : EnvSound cc β) (h0 : cc.level = 0) (hs : SortOk tc) (h : Going W) (hc : W.book.cs[n]? = some c) (ha : c.alive = true)
    (hx : translateOne cc tc fuel n W = .ok (((true, b), added), W')) (hl : W'.vars.length ≤ INVALID_VAR) (hnf : NoFact W) (hi : Inv β σ W) (hr : Respects β σ W'.log)
    (hm : Meant β σ c.con W added W') (ht : litTrue β c.con.lit → conHolds σ none c.con) : Inv β σ W' := by
  have hz := (h.cons n c hc ha).1
  cases hk : c.con with
  | sum lit rhs es =>
    rw [hk] at hz ht
    obtain ⟨g1, g2⟩ := h.sums hc ha hk
    exact ((tr_sumTranslate (m := false) he h0 hz.1 hz.2 (h.withinSum hi hc ha hk) g1 g2 (fun _ => ht) W _ W' (translateOne_sum hc hk hx)).2 ⟨hi, rfl⟩
      ⟨hr, fun h => by cases h⟩).1.1
  | minimize a es => exact (C28_objective he.tt hi (translateOne_minimize hc hk hx).2 hr).2.2
  | distinct lit es =>
    rw [hk] at hz ht hm
    refine (distinctTranslate_ok he h0 hs hi h.ti.pos (h.bounds hc ha hk) (h.withinDistinct hi hc ha hk) hz (translateOne_distinct hc hk hx) hl hm.added hr
      (fun cl hcl => ?_) (.inr ⟨hnf, ht⟩)).1
    rcases hm.clauses ⟨_, _, rfl⟩ cl hcl with h | h
    · exact hi.good.posted (.clause cl) h
    · exact h
  | disjoint l es => rw [(translateOne_other hc (.inl ⟨_, _, hk⟩) hx).2]; exact hi
  | nonlinear l a x y d z r => rw [(translateOne_other hc (.inr ⟨_, _, _, _, _, _, _, hk⟩) hx).2]; exact hi

/-- What is new can be given its meaning. -/
theorem one_extends (hs : SortOk tc) (tt : litTrue β 1) (h : Going W) (hol : OrdLog W) (hc : W.book.cs[n]? = some c) (ha : c.alive = true)
    (hx : translateOne cc tc fuel n W = .ok (((true, b), added), W')) (hres : Respects β σ W.log) :
    ∃ (β' : Nat → Bool) (σ' : Nat → Int), agreeBelow W.nextLit β β' ∧ (∀ v < W.vars.length, σ' v = σ v) ∧ Respects β' σ' W'.log ∧
      ∀ (β'' : Nat → Bool) (σ'' : Nat → Int), agreeBelow W'.nextLit β' β'' → (∀ v < W'.vars.length, σ'' v = σ' v) → Meant β'' σ'' c.con W added W' := by
  have hp := h.ti.pos
  have lift : ∀ {β' : Nat → Bool} {σ' : Nat → Int} {new : List SEv}, W'.log = new ++ W.log → agreeBelow W.nextLit β β' → (∀ v < W.vars.length, σ' v = σ v) →
      Respects β' σ' new → Respects β' σ' W'.log := by
    intro β' σ' new e g1 g2 g3 l v k hm
    rw [e, List.mem_append] at hm
    rcases hm with hm | hm
    · exact g3 l v k hm
    · rw [← litTrue_congr g1 (hol _ _ _ hm).1, g2 v (hol _ _ _ hm).2]; exact hres _ _ _ hm
  cases hk : c.con with
  | sum lit rhs es =>
    obtain ⟨-, new, e, -, hxx⟩ := (Closed.sumTranslate (fresh_closed (σ := σ) (n0 := W.nextLit) (P := fun _ => True) (fun _ _ _ _ => trivial))).pres W _ W'
      (translateOne_sum hc hk hx) (by omega) le_rfl
    obtain ⟨β', h1, h2⟩ := hxx β trivial
    have hadd := translateOne_sum_added hc hk hx
    dsimp only at hadd
    exact ⟨β', σ, h1, fun _ _ => rfl, lift e h1 (fun _ _ => rfl) h2, fun β'' σ'' _ _ => ⟨(by rw [hadd]; intro c hc; cases hc), fun ⟨l, es, he⟩ => (by cases he)⟩⟩
  | minimize a es =>
    obtain ⟨hadd, hx'⟩ := translateOne_minimize hc hk hx
    obtain ⟨-, new, e, -, hxx⟩ := (Closed.minimizeTranslate (fresh_closed (σ := σ) (n0 := W.nextLit) (P := fun _ => True) (fun _ _ _ _ => trivial))).pres W _ W'
      hx' (by omega) le_rfl
    obtain ⟨β', h1, h2⟩ := hxx β trivial
    dsimp only at hadd
    exact ⟨β', σ, h1, fun _ _ => rfl, lift e h1 (fun _ _ => rfl) h2, fun β'' σ'' _ _ => ⟨(by rw [hadd]; intro c hc; cases hc), fun ⟨l, es, he⟩ => (by cases he)⟩⟩
  | distinct lit es =>
    obtain ⟨σ', e1, e2, e3⟩ := distinctTranslate_extends hs (h.bounds hc ha hk) (translateOne_distinct hc hk hx) σ
    obtain ⟨-, -, -, new, e, -, hcb, hxx⟩ := e3 h.ti.wf (tabOk_of h.ti)
    obtain ⟨β', h1, h2, h3⟩ := hxx β tt
    refine ⟨β', σ', h1, e1, lift e h1 e1 h2, fun β'' σ'' g1 g2 => ⟨fun c' hc' => ?_, fun _ cl hcl => ?_⟩⟩
    · exact (one_added hs h hc ha hx c' hc').local g2 (e2 c' hc')
    · rw [e, List.mem_append] at hcl
      rcases hcl with hcl | hcl
      · obtain ⟨l, hl1, hl2⟩ := h3 cl hcl
        exact .inr ⟨l, hl1, (litTrue_congr g1 (hcb cl hcl l hl1)).mp hl2⟩
      · exact .inl hcl
  | disjoint l es =>
    obtain ⟨hq, rfl⟩ := translateOne_other hc (.inl ⟨_, _, hk⟩) hx
    cases hq
    exact ⟨β, σ, fun _ _ => rfl, fun _ _ => rfl, hres, fun _ _ _ _ => ⟨fun c hc => (by cases hc), fun ⟨l, es, he⟩ => (by cases he)⟩⟩
  | nonlinear l a x y d z r =>
    obtain ⟨hq, rfl⟩ := translateOne_other hc (.inr ⟨_, _, _, _, _, _, _, hk⟩) hx
    cases hq
    exact ⟨β, σ, fun _ _ => rfl, fun _ _ => rfl, hres, fun _ _ _ _ => ⟨fun c hc => (by cases hc), fun ⟨l, es, he⟩ => (by cases he)⟩⟩

end Clingcon.Props
