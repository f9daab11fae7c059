import Verif.Props.TranslateRun
import Verif.Props.FedSound

/-! Solutions are kept if constraints are translated: property C74. -/
set_option linter.unusedSimpArgs false
namespace Clingcon.Props
open Clingcon Clingcon.Spec

variable {cc : CC} {tc : TConf} {fuel : Nat} {β β' : Nat → Bool} {σ σ' : Nat → Int} {W W' W0 : World} {n : Nat} {c : CState} {b : Bool} {added : List Constr} {ts : List Told}

/-! ### The constraints added by the translation -/

/-- A linear constraint over different variables that has to hold. -/
def Plain (c : Constr) : Prop := ∃ r es, c = .sum TRUE_LIT r es ∧ (es.map (·.2)).Nodup

theorem termRep_plain {n : Nat} {lo up : Nat → Int} {e : CoVarVec × Int} {d : IntervalSet} {a : Int × Int} {p : DiffElem × List Constr} (hs : SortOk tc) (hd : DomOk n lo up e d)
    (hn : n ≤ W.vars.length) (hne : (e.1.map (·.2)).Nodup) (h : termRep tc e a W = .ok (p, W')) : ∀ c ∈ p.2, Plain c := by
  obtain ⟨ev, ef⟩ := e
  unfold termRep at h
  dsimp only at h
  match ev, hd, hne, h with
  | [(co, x)], hd, hne, h => obtain ⟨rfl, rfl⟩ := pure_iff.mp h; intro c hc; cases hc
  | e1 :: e2 :: es, hd, hne, h =>
    obtain ⟨v, W1, h1, h2⟩ := SM.bind_ok h
    obtain ⟨rfl, rfl⟩ := pure_iff.mp h2
    obtain ⟨g1, rfl, g2⟩ := addVar_appended h1
    have key : (((-1, W.vars.length) :: e1 :: e2 :: es : CoVarVec).map (·.2)).Nodup := by
      rw [List.map_cons, List.nodup_cons]
      refine ⟨fun hm => ?_, hne⟩
      obtain ⟨x, hx, e⟩ := List.mem_map.mp hm
      have := hd.vars x hx
      simp only at e
      omega
    intro c hc
    simp only [List.mem_cons, List.not_mem_nil, or_false] at hc
    rcases hc with rfl | rfl
    · exact ⟨_, _, rfl, ((hs _).map _).nodup_iff.mpr key⟩
    · refine ⟨_, _, rfl, ((hs _).map _).nodup_iff.mpr ?_⟩
      rw [List.map_map]
      exact key
  | [], hd, _, h => cases h

theorem termVars_plain {n : Nat} {lo up : Nat → Int} {counts : List (Int × Nat)} (hs : SortOk tc) : ∀ {es : List (CoVarVec × Int)} {as : List (Int × Int)} {ds : List IntervalSet} {W W' : World}
    {p : List DiffElem × List Constr}, termVars tc counts es as ds W = .ok (p, W') → BoundsOk lo up es as → List.Forall₂ (DomOk n lo up) es ds → n ≤ W.vars.length →
    (∀ e ∈ es, (e.1.map (·.2)).Nodup) → ∀ c ∈ p.2, Plain c := by
  intro es
  induction es with
  | nil =>
    intro as ds W W' p h ha hd hn _
    cases hd
    obtain ⟨rfl, rfl⟩ := pure_iff.mp h
    intro c hc; cases hc
  | cons e es ih =>
    intro as ds W W' p h ha hd hn hne
    cases hd with
    | @cons _ d _ ds hd0 hd =>
    cases as with
    | nil => cases h
    | cons a as =>
    obtain ⟨rfl, hb⟩ := ha.cons
    unfold termVars at h
    split_ifs at h with hc
    · obtain ⟨r, W1, h1, h⟩ := SM.bind_ok h
      obtain ⟨q, W2, h2, h⟩ := SM.bind_ok h
      obtain ⟨rfl, rfl⟩ := pure_iff.mp h
      obtain ⟨a1, -⟩ := termRep_ok hs hd0 hn h1
      intro c hc
      rcases List.mem_append.mp hc with hc | hc
      · exact termRep_plain hs hd0 hn (hne e (by simp)) h1 c hc
      · exact ih h2 hb hd (hn.trans a1.len) (fun e he => hne e (by simp [he])) c hc
    · obtain ⟨q, W2, h2, h⟩ := SM.bind_ok h
      obtain ⟨rfl, rfl⟩ := pure_iff.mp h
      exact fun c hc => ih h2 hb hd hn (fun e he => hne e (by simp [he])) c hc

theorem distinctTranslate_plain {c : CState} {lit : Int} {es : List (CoVarVec × Int)} {q : (Bool × Bool) × List Constr} (hs : SortOk tc)
    (hb : BoundsOk (loF (frame W)) (upF (frame W)) es c.assigned) (hne : ∀ e ∈ es, (e.1.map (·.2)).Nodup) (h : distinctTranslate cc tc c lit es W = .ok (q, W')) :
    ∀ c ∈ q.2, Plain c := by
  unfold distinctTranslate at h
  split_ifs at h with hest
  · obtain ⟨rfl, rfl⟩ := pure_iff.mp h
    intro c hc; cases hc
  obtain ⟨ds, W1, h1, hA⟩ := SM.bind_ok h
  clear h
  obtain ⟨rfl, hd⟩ := termDomains_ok h1 hb
  obtain ⟨p, W2, h2, hB⟩ := SM.bind_ok hA
  clear hA
  obtain ⟨ret, W3, h3, hC⟩ := SM.bind_ok hB
  obtain ⟨rfl, rfl⟩ := pure_iff.mp hC
  exact termVars_plain hs h2 hb hd le_rfl hne

/-- The variables of the terms of a distinct constraint are different. -/
def Terms (c : Constr) : Prop := ∀ lit es, c = .distinct lit es → ∀ e ∈ es, (e.1.map (·.2)).Nodup

theorem Plain.terms {c : Constr} (h : Plain c) : Terms c := by
  obtain ⟨r, es, rfl, -⟩ := h
  intro lit es e; cases e

theorem one_plain (hs : SortOk tc) (h : Going W) (hc : W.book.cs[n]? = some c) (ha : c.alive = true) (ht : Terms c.con) (hx : translateOne cc tc fuel n W = .ok (((true, b), added), W')) :
    ∀ c ∈ added, Plain c := by
  cases hk : c.con with
  | sum lit rhs es =>
    have : added = [] := translateOne_sum_added hc hk hx
    rw [this]; intro c hc; cases hc
  | minimize a es =>
    have : added = [] := (translateOne_minimize hc hk hx).1
    rw [this]; intro c hc; cases hc
  | distinct lit es => exact distinctTranslate_plain hs (h.bounds hc ha hk) (ht lit es hk) (translateOne_distinct hc hk hx)
  | disjoint l es =>
    have := (translateOne_other hc (.inl ⟨_, _, hk⟩) hx).1
    cases this; intro c hc; cases hc
  | nonlinear l a x y d z r =>
    have := (translateOne_other hc (.inr ⟨_, _, _, _, _, _, _, hk⟩) hx).1
    cases this; intro c hc; cases hc

theorem chain_plain {q : List TCon} {tr : List (Nat × Bool)} (hs : SortOk tc) (h : Translated cc tc fuel q W tr W') : Going W → News W q → (∀ c, TCon.new c ∈ q → Plain c) →
    (∀ p ∈ states W, Terms p.1) → ∃ new, states W' = states W ++ new ∧ ∀ p ∈ new, Plain p.1 ∧ p.2 = true := by
  induction h with
  | nil W => exact fun _ _ _ _ => ⟨[], by simp, fun p hp => by cases hp⟩
  | @cons t q W n W1 b added W2 tr W3 h1 h2 h3 ih =>
    intro hg hn hp ht
    obtain ⟨g1, g2, s1, s2, hn', c0, hc0, ha0⟩ := news_step hs hg hn h1 h2
    obtain ⟨new1, e1, p1⟩ : ∃ new, states W1 = states W ++ new ∧ ∀ p ∈ new, Plain p.1 ∧ p.2 = true := by
      cases t with
      | old m => obtain ⟨-, rfl⟩ := pure_iff.mp h1; exact ⟨[], by simp, fun p hp => by cases hp⟩
      | new c =>
        refine ⟨_, (states_add h1).2, fun p hm => ?_⟩
        rw [List.mem_singleton.mp hm]
        exact ⟨hp c (List.mem_cons_self ..), rfl⟩
    have ht1 : ∀ p ∈ states W1, Terms p.1 := by
      intro p hm
      rw [e1] at hm
      rcases List.mem_append.mp hm with hm | hm
      · exact ht p hm
      · exact (p1 p hm).1.terms
    have hpl := one_plain hs g1 hc0 ha0 (ht1 _ (List.mem_of_getElem? (states_get.mpr ⟨c0, hc0, ha0, rfl⟩))) h2
    obtain ⟨new2, e2, p2⟩ := ih g2 hn' (fun c hc => by
      rcases List.mem_append.mp hc with hc | hc
      · exact hp c (List.mem_cons_of_mem _ hc)
      · obtain ⟨c', k1, k2⟩ := List.mem_map.mp hc
        injection k2 with k2
        subst k2
        exact hpl _ k1) (by rw [states_one h2]; exact ht1)
    refine ⟨new1 ++ new2, by rw [e2, states_one h2, e1, List.append_assoc], fun p hm => ?_⟩
    rcases List.mem_append.mp hm with hm | hm
    · exact p1 p hm
    · exact p2 p hm

/-! ### What is admitted -/

theorem fed_alive {ops : List Op} {ts' : List Told} (h : Fed ops W ts W' ts') : NoRemoval ops → IA W.book → (∀ k ∈ W.book.cs, k.alive = true) → ∀ k ∈ W'.book.cs, k.alive = true := by
  induction h with
  | nil => exact fun _ _ h => h
  | @cons op ops W W1 W2 ts ts2 r hp hf hx _ ih =>
    intro hn hi ha
    have h1 := hn op (List.mem_cons_self ..)
    obtain ⟨add, e1, -, e3, -⟩ := acon_step h1 hx hi
    refine ih (fun o ho => hn o (List.mem_cons_of_mem _ ho)) (ia_step (fun n e => absurd e (h1.1 n)) hx hi) fun k hk => ?_
    have : acon k ∈ W1.book.cs.map acon := List.mem_map_of_mem hk
    rw [e1] at this
    rcases List.mem_append.mp this with hm | hm
    · obtain ⟨y, hy, e⟩ := List.mem_map.mp hm
      have : k.alive = y.alive := congrArg Prod.fst e.symm
      rw [this]
      exact ha y hy
    · exact e3 _ hm

theorem trans_bound {ops : List Op} {ts' : List Told} (h : Fed ops W ts W' ts') : (∀ op ∈ ops, transOp cc op) → W'.book.minimizeBound = W.book.minimizeBound := by
  induction h with
  | nil => exact fun _ => rfl
  | @cons op ops W W1 W2 ts ts2 r hp hf hx _ ih =>
    intro ht
    rw [ih fun o ho => ht o (List.mem_cons_of_mem _ ho)]
    have h0 := ht op (List.mem_cons_self ..)
    cases op with
    | literal c v x =>
      obtain ⟨_, W2, h1, h2⟩ := SM.bind_ok hx
      obtain ⟨-, rfl⟩ := pure_iff.mp h2
      obtain ⟨a, h3⟩ := discard_iff.mp h1
      exact congrArg (fun F : List VarState × Book => F.2.minimizeBound) (fr_getLiteral.fr _ _ _ h3)
    | addVar a b =>
      obtain ⟨_, W2, h1, h2⟩ := SM.bind_ok hx
      obtain ⟨-, rfl⟩ := pure_iff.mp h2
      obtain ⟨v, h3⟩ := discard_iff.mp h1
      injection h3 with h3
      obtain ⟨-, rfl⟩ := Prod.mk.inj h3
      rfl
    | addConstraint c =>
      obtain ⟨_, W2, h1, h2⟩ := SM.bind_ok hx
      obtain ⟨-, rfl⟩ := pure_iff.mp h2
      obtain ⟨v, h3⟩ := discard_iff.mp h1
      obtain ⟨b, rfl, hb⟩ := addConstraint_only h3
      exact congrArg Prod.snd hb
    | removeConstraints rem =>
      obtain ⟨_, W2, h1, h2⟩ := SM.bind_ok hx
      obtain ⟨-, rfl⟩ := pure_iff.mp h2
      obtain rfl := modify_iff.mp h1
      exact congrArg Prod.snd (removeConstraints_con (rem := rem))
    | fresh => rw [(fresh_iff.mp hx).2]
    | post e => rw [(post_iff.mp hx).2]
    | enable => rw [(enable_iff.mp hx).2]
    | _ => exact h0.elim

theorem admits_local {N : Int} {B : Option Int} {c : Constr} (h1 : agreeBelow N β β') (hl : |c.lit| < N) (h2 : ∀ w ∈ c.watches, σ' w.2 = σ w.2) (h : admits β σ B c) : admits β' σ' B c := by
  have hlt := litTrue_congr h1 hl
  cases c with
  | sum l r es => exact ⟨h.1, h.2.1, fun ht => conHolds_local (c := .sum l r es) h2 (h.2.2 (hlt.mpr ht))⟩
  | minimize a es =>
    refine ⟨h.1, fun b hb => ?_⟩
    have := h.2 b hb
    rwa [wsum_local (σ := σ) (es := es) h2]
  | distinct l es => exact ⟨h.1, fun ht => conHolds_local (c := .distinct l es) h2 (h.2 (hlt.mpr ht))⟩
  | disjoint l es => exact ⟨h.1, h.2.1, fun ht => conHolds_local (c := .disjoint l es) h2 (h.2.2 (hlt.mpr ht))⟩
  | nonlinear l ca x y cb z r => exact ⟨conHolds_local (c := .nonlinear l ca x y cb z r) h2 h.1, h.2⟩

theorem admits_holds {B : Option Int} {c : Constr} (h : admits β σ B c) (hl : litTrue β c.lit) : conHolds σ none c := by
  cases c with
  | sum l r es => exact h.2.2 hl
  | minimize a es => intro b hb; cases hb
  | distinct l es => exact h.2 hl
  | disjoint l es => exact h.2.2 hl
  | nonlinear l ca x y cb z r => exact h.1

theorem good_top (hw : WI W) (hg : Good β σ W) (hl : W.book.levels.length = 1) : ∀ v, v < W.vars.length → lowerOf W v ≤ σ v ∧ σ v ≤ upperOf W v := by
  intro v hv
  have hb := hw.b0 hl
  obtain ⟨vs, hvs⟩ : ∃ vs, W.vars[v]? = some vs := ⟨_, List.getElem?_eq_getElem hv⟩
  have h3 := hg.bound v vs hvs
  have e1 : vs.lowerStack = [] := by
    have := hb.stL v
    simp only [lstF, frame, List.getElem?_map, hvs] at this
    simpa [VarState.bounds] using this
  have e2 : vs.upperStack = [] := by
    have := hb.stU v
    simp only [ustF, frame, List.getElem?_map, hvs] at this
    simpa [VarState.bounds, negStk] using this
  unfold VarState.minBound VarState.maxBound at h3
  rw [e1, e2] at h3
  unfold lowerOf upperOf boundsOf
  rw [List.getElem?_map, hvs]
  exact h3

/-- Nothing that is derived in a later state excludes the assignment, given the state after the translation: for all later calls that do not exclude it, with arbitrary values for what they introduce, what is posted
holds, no conflict on the top level is reported, and the bounds on the top level admit the values. -/
def KeptBy (β : Nat → Bool) (σ : Nat → Int) (W1 : World) (ts : List Told) : Prop :=
  ∀ β' σ' ops W ts', agreeBelow W1.nextLit β β' → (∀ v < W1.vars.length, σ' v = σ v) → AdmFed β' σ' ops W1 ts W ts' → Respects β' σ' W.log →
    AllHold β' W.log ∧ SEv.clause [] ∉ W.log ∧ (W.book.levels.length = 1 → ∀ v, v < W.vars.length → lowerOf W v ≤ σ' v ∧ σ' v ≤ upperOf W v)

/-- **C74** (partial as `C57_fed_partial`.) No solution is lost if constraints are translated. Let an assignment be given that is not excluded by what is added before the translation. Then it can be extended to the literals and variables introduced by the
translation such that nothing that is derived afterwards excludes it, over any sequence of calls, with any interleaving of decisions, propagation, and undoing. -/
theorem C74_kept_partial {m : Int} {ops : List Op} {steps : Nat} {v kept : List TCon} {W1 : World} (hm : 1 < m) (h : AdmFed β σ ops (World.init m) [Told.none] W ts) (hr : Respects β σ W.log) (hrem : NoRemoval ops)
    (he : ∀ β', agreeBelow W.nextLit β β' → EnvSound cc β') (h0 : cc.level = 0) (hs : SortOk tc)
    (hq : Translatable W) (hk : Known W) (hf : NoFact W) (ht : ∀ p ∈ states W, Terms p.1) (hv : InQueue W v) (hx : solverTranslate cc tc fuel steps v W = .ok ((true, kept), W1))
    (hl : W1.vars.length ≤ INVALID_VAR) :
    ∃ (β' : Nat → Bool) (σ' : Nat → Int), agreeBelow W.nextLit β β' ∧ (∀ v < W.vars.length, σ' v = σ v) ∧ KeptBy β' σ' W1 ts := by
  have hfed : Fed ops (World.init m) [Told.none] W ts := Clingcon.AdmFed.fed h
  have hw := fed_reach hm hfed
  obtain ⟨hi, ha⟩ := admRun_sound (admFed_admRun h (gi_init hm)) ⟨m, [], hm, .nil _⟩ (init_inv hm) (by intro c hc; cases hc) hr
  have hal := fed_alive hfed hrem (fun n hn => by cases hn) (by intro k hk; cases hk)
  have hsol : Solution β σ W := by
    refine ⟨hi.good, hr, fun n c hc ht => ?_⟩
    obtain ⟨x, k1, -, rfl⟩ := states_get.mp hc
    exact admits_holds (ha _ (konsB_get k1)) ht
  have hg := going_start hw hq
  obtain ⟨Wc, tr, p⟩ := parts hs hg hv hx
  obtain ⟨β', σ', a1, a2, a3⟩ := kept_parts he h0 hs hg hk hf hv p hl hsol
  refine ⟨β', σ', a1, a2, fun β'' σ'' ops2 W2 ts2 b1 b2 hrun hr2 => ?_⟩
  obtain ⟨sol1, hold1⟩ := a3 β'' σ'' b1 b2
  obtain ⟨k1, hw1, -⟩ := C74_calls hs hw hq hv hx
  obtain ⟨opsT, k2, k3⟩ := k1 ts
  obtain ⟨-, s1⟩ := chain_going hs p.chain hg (lists_news hv)
  obtain ⟨new, e1, e2⟩ := chain_plain hs p.chain hg (lists_news hv) (fun c hc => by obtain ⟨n, h⟩ := hv.old _ hc; cases h) ht
  have hgi1 := gi_fed (Clingcon.Fed.trans hfed k2) (gi_init hm)
  have n0 : W.nextLit ≤ W1.nextLit := le_trans s1.next p.sub.next
  have b3 := agree_chain a1 b1 n0
  have b4 : ∀ v < W.vars.length, σ'' v = σ v := fun v hv => by rw [b2 v (by rw [p.len]; have := s1.len; omega), a2 v hv]
  have tt : litTrue β'' 1 := (he β'' b3).tt
  have bnd := trans_bound k2 k3
  have ha1 : Adm β'' σ'' (konsB W1.book) := by
    intro c hc
    obtain ⟨x, hx1, rfl⟩ := List.mem_map.mp hc
    obtain ⟨n, hn⟩ := List.getElem?_of_mem hx1
    have hst : (states W1)[n]? = some (x.con, x.alive) := by
      unfold states
      rw [List.getElem?_map, hn]
      rfl
    rw [p.states n] at hst
    obtain ⟨⟨c1, a⟩, hy, e⟩ := Option.map_eq_some_iff.mp hst
    injection e with e3 e4
    simp only at e3
    show admits β'' σ'' W1.book.minimizeBound x.con
    rw [bnd, ← e3]
    have hy0 := hy
    rw [e1, List.getElem?_append] at hy
    split_ifs at hy with hlt
    · unfold states at hy
      rw [List.getElem?_map] at hy
      obtain ⟨z, hz, e⟩ := Option.map_eq_some_iff.mp hy
      injection e with e5 e6
      subst e5
      have hza := hal z (List.mem_of_getElem? hz)
      exact admits_local b3 (hk.cons n _ (states_get.mpr ⟨z, hz, hza, rfl⟩)) (fun w hw => b4 w.2 (hg.calm.vars hz hza w hw)) (ha _ (konsB_get hz))
    · obtain ⟨q1, q2⟩ := e2 _ (List.mem_of_getElem? hy)
      simp only at q1 q2
      subst q2
      obtain ⟨r, es, rfl, q3⟩ := q1
      exact ⟨by decide, q3, fun ht => hold1 n _ hy0 ht⟩
  obtain ⟨hi2, -⟩ := admRun_sound (admFed_admRun hrun hgi1) hw1 ⟨sol1.good, hw1.ti.wf⟩ ha1 hr2
  have hw2 : Reach W2 := fed_reach hm (Clingcon.Fed.trans (Clingcon.Fed.trans hfed k2) (Clingcon.AdmFed.fed hrun))
  refine ⟨hi2.good.posted, fun hm => ?_, fun hlv => good_top hw2.wi hi2.good hlv⟩
  have hh := hi2.good.posted _ hm
  obtain ⟨l, hl, -⟩ := hh
  cases hl

section
variable (pow : Int → Int → Res Int) (hpow : ∀ x y z, pow x y = .ok z → -2 ^ 31 ≤ z ∧ z ≤ 2 ^ 31 - 1)
variable (env : BEnv) (penv : PEnv) (Base : (Nat → Bool) → Prop) (as : List TheoryAtom) (s s' : BState) (p p' : PState) (evs : List Event) (bb bb' : Bool)

include hpow in
/-- **C74** (partial as `C72_kept_partial`.) No solution of the program is lost if constraints are translated. Let a truth assignment to the literals of the program and an
assignment to the symbols be given such that all theory atoms have their meaning. Then there is an extension to the auxiliary literals such that for any sequence of calls that only add what the constraint builder has passed on, and any
subsequent translation, there is an extension to what the translation introduces such that nothing derived later excludes it. -/
theorem C74_program_partial {new : List PEv} (hld : Loaded pow env penv as s s' p p' evs bb bb' new) {σ : Sym → Int} {τ : Nat → Int} (ha : Agree σ τ s')
    (ho : Oracle env τ s.log s.nextLit Base) (hp : POracle penv τ p.log s.nextLit Base)
    {β : Nat → Bool} (hb : Base β) (hsol : ∀ a ∈ as, atomHolds pow σ β (env.solverLit a.lit) a) :
    ∃ β', agreeBelow s.nextLit β β' ∧ (∀ c, PEv.clause c ∈ new → ∃ l ∈ c, litTrue β' l) ∧
      ∀ β1 ops W ts, agreeBelow p'.nextLit β' β1 → PostFed new β1 τ ops (World.init p'.nextLit) [Told.none] W ts → Respects β1 τ W.log → NoRemoval ops →
      ∀ cc tc fuel steps v kept W1, (∀ β', agreeBelow W.nextLit β1 β' → EnvSound cc β') → cc.level = 0 → SortOk tc →
        Translatable W → Known W → NoFact W → (∀ p ∈ states W, Terms p.1) → InQueue W v → solverTranslate cc tc fuel steps v W = .ok ((true, kept), W1) → W1.vars.length ≤ INVALID_VAR →
        ∃ (β2 : Nat → Bool) (τ2 : Nat → Int), agreeBelow W.nextLit β1 β2 ∧ (∀ v < W.vars.length, τ2 v = τ v) ∧ KeptBy β2 τ2 W1 ts := by
  obtain ⟨hpr, hcap⟩ := Loaded.captures pow hpow env penv Base as s s' p p' evs bb bb' hld ho hp ha
  obtain ⟨β', a1, k1⟩ := hcap.sound β hb hsol
  refine ⟨β', a1, fun c hc => k1 _ hc, fun β1 ops W ts a2 hrun hr hrem cc tc fuel steps v kept W1 he h0 hs hq hk hf ht hv hx hl => ?_⟩
  have k2 : ∀ e ∈ new, pholds β1 τ e := fun e he => (hcap.locality e he _ _ a2).1 (k1 e he)
  exact C74_kept_partial (lt_of_lt_of_le ho.pos hcap.mono) (postFed_admFed hpr k2 hrun) hr hrem he h0 hs hq hk hf ht hv hx hl

end

end Clingcon.Props
