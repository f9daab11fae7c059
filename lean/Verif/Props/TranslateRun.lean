import Verif.Props.Solutions
import Verif.Proof.Optimize
import Verif.Props.Answers
import Verif.Spec.TranslateRun

/-! Translation as a sequence of calls: property C74. -/
set_option linter.unusedSimpArgs false
namespace Clingcon.Props
open Clingcon Clingcon.Spec

variable {cc : CC} {tc : TConf} {fuel : Nat} {β β' : Nat → Bool} {σ σ' : Nat → Int} {W W' W0 : World} {n : Nat} {c : CState} {b : Bool} {added : List Constr} {ts : List Told}

/-- A state on the top level that is reached from the given one by calls of the translation. -/
structure Trail (cc : CC) (W0 : World) (ts : List Told) (W : World) : Prop where
  reach : Reach W
  top : W.book.levels.length = 1
  fed : ∃ ops, Fed ops W0 ts W ts ∧ ∀ op ∈ ops, transOp cc op

theorem transOp_other {op : Op} (h : transOp cc op) : (∀ c ls, op ≠ .propagate c ls) ∧ op ≠ .undo := by
  refine ⟨?_, ?_⟩
  · rintro c ls rfl; exact h
  · rintro rfl; exact h

theorem Trail.step {op : Op} {r : Bool} (h : Trail cc W0 ts W) (hp : op.pre W) (hf : feedPre ts W op) (ht : transOp cc op) (hx : op.exec W = .ok (r, W')) : Trail cc W0 ts W' := by
  obtain ⟨h1, h2⟩ := transOp_other ht
  obtain ⟨ops, k1, k2⟩ := h.fed
  refine ⟨h.reach.step hp hx, ?_, ops ++ [op], Clingcon.Fed.trans k1 ?_, ?_⟩
  · rw [op_levels hp hx h.reach.wi h1 h2]
    exact h.top
  · have := Fed.one hp hf hx
    rwa [told_other h1 h2] at this
  · intro o ho
    rcases List.mem_append.mp ho with ho | ho
    · exact k2 o ho
    · rw [List.mem_singleton.mp ho]; exact ht

theorem trail_prim : PrimT cc (fun a b => a ≤ b) (Trail cc W0 ts) where
  event W e he h := h.step (op := .post e) ⟨h.top, he⟩ trivial trivial (post_iff.mpr ⟨rfl, rfl⟩)
  literal v x := ⟨fun W a W' hx h => by
    refine h.step (op := .literal cc v x) (r := true) trivial ?_ rfl ?_
    · show W.level ≤ cc.level
      unfold World.level
      rw [h.reach.wi.levels h.top]
      exact Nat.zero_le _
    · unfold Op.exec
      exact bind_iff.mpr ⟨(), W', discard_iff.mpr ⟨a, hx⟩, pure_iff.mpr ⟨rfl, rfl⟩⟩⟩
  newLit := ⟨fun W a W' hx h => h.step (op := .fresh) (r := true) h.top trivial trivial (fresh_iff.mpr ⟨rfl, (newLit_iff.mp hx).2⟩)⟩
  addVar a b hab := ⟨fun W x W' hx h => by
    refine h.step (op := .addVar a b) (r := true) ⟨h.top, hab⟩ trivial trivial ?_
    unfold Op.exec
    exact bind_iff.mpr ⟨(), W', discard_iff.mpr ⟨x, hx⟩, pure_iff.mpr ⟨rfl, rfl⟩⟩⟩
  enable W h := h.step (op := .enable) h.top trivial trivial (enable_iff.mpr ⟨rfl, rfl⟩)

/-- The bounds of terms of distinct constraints are ordered. -/
theorem terms_ordered (h : Going W) (hn : AllNested W) (hc : W.book.cs[n]? = some c) (ha : c.alive = true) {lit : Int} {es : List (CoVarVec × Int)} (hk : c.con = .distinct lit es) :
    ∀ (i : Nat) (e : CoVarVec × Int) (a : Int × Int), es[i]? = some e → c.assigned[i]? = some a → a.1 ≤ a.2 := by
  intro i e a he hi
  have hb := h.bounds hc ha hk i e he
  rw [hb] at hi
  injection hi with hi
  subst hi
  have hw : Within (loF (frame W)) (upF (frame W)) (loF (frame W)) e.1 := by
    intro x hx
    refine ⟨le_rfl, ?_⟩
    obtain ⟨w, hw, e⟩ := distinctWatches_var (i := 0) (List.mem_of_getElem? he) hx
    have hv : x.2 < W.vars.length := by
      rw [← e]
      exact h.calm.vars hc ha w (by rw [hk]; exact hw)
    have g : W.vars[x.2]? = some W.vars[x.2] := List.getElem?_eq_getElem hv
    have := (hn.get g).le
    rw [lowerOf_fun, upperOf_fun]
    have e1 : lowerOf W x.2 = W.vars[x.2].lower := by simp [lowerOf, boundsOf, g]
    have e2 : upperOf W x.2 = W.vars[x.2].upper := by simp [upperOf, boundsOf, g]
    rw [e1, e2]
    exact this
  have := term_between hw
  exact le_trans this.1 this.2

theorem chain_trail {q : List TCon} {tr : List (Nat × Bool)} (hs : SortOk tc) (h : Translated cc tc fuel q W tr W') : Going W → News W q → Trail cc W0 ts W → Trail cc W0 ts W' := by
  induction h with
  | nil W => exact fun _ _ h => h
  | @cons t q W n W1 b added W2 tr W3 h1 h2 h3 ih =>
    intro hg hn ht
    obtain ⟨g1, g2, s1, s2, hn', c0, hc0, ha0⟩ := news_step hs hg hn h1 h2
    have t1 : Trail cc W0 ts W1 := by
      cases t with
      | old m => obtain ⟨-, rfl⟩ := pure_iff.mp h1; exact ht
      | new c =>
        obtain ⟨r, es, rfl, -⟩ := hn c (List.mem_cons_self ..)
        refine ht.step (op := .addConstraint (.sum TRUE_LIT r es)) (r := true) ⟨ht.top, hg.calm.still.low, hg.calm.still.upp⟩ trivial ⟨_, _, rfl⟩ ?_
        unfold Op.exec
        exact bind_iff.mpr ⟨(), W1, discard_iff.mpr ⟨n, h1⟩, pure_iff.mpr ⟨rfl, rfl⟩⟩
    exact ih g2 hn' (kt_translateOne' trail_prim h2 t1 fun c l es hc ha hk => terms_ordered g1 t1.reach.nested hc ha hk)

theorem trail_split {steps : Nat} {v kept : List TCon} (h : solverTranslate cc tc fuel steps v W = .ok ((true, kept), W')) (hp : ∀ tr W1, Translated cc tc fuel v W tr W1 → Trail cc W0 ts W1) :
    Trail cc W0 ts W' := by
  unfold solverTranslate at h
  obtain ⟨r, W1, h1, h2⟩ := bind_iff.mp h
  cases r with
  | none => injection h2 with h2; injection h2 with h2; injection h2 with h2; cases h2
  | some p =>
    obtain ⟨v', j'⟩ := p
    obtain ⟨tr, t1, -, -⟩ := translateLoop_spec steps 0 0 [] [] v rfl rfl (by simpa using h1)
    have k1 := hp tr W1 t1
    simp only at h2
    obtain ⟨u, W2, h3, h4⟩ := bind_iff.mp h2
    have k2 : Trail cc W0 ts W2 := by
      by_cases hj : j' < v'.length
      · simp only [whenS, hj, decide_true, if_true] at h3
        refine k1.step (op := .removeConstraints (inRemoved (v'.drop j'))) (r := true) k1.top trivial trivial ?_
        unfold Op.exec
        exact bind_iff.mpr ⟨(), W2, h3, pure_iff.mpr ⟨rfl, rfl⟩⟩
      · simp only [whenS, hj, decide_false, Bool.false_eq_true, if_false] at h3
        obtain ⟨-, rfl⟩ := pure_iff.mp h3
        exact k1
    by_cases ho : tc.orderClauses = true
    · rw [if_pos ho] at h4
      obtain ⟨Wx, W3, h5, h6⟩ := bind_iff.mp h4
      obtain ⟨rfl, rfl⟩ := get_iff.mp h5
      obtain ⟨ret, W4, h7, h8⟩ := bind_iff.mp h6
      obtain ⟨h10, rfl⟩ := pure_iff.mp h8
      exact (kt_allOrderClauses trail_prim.toS).kw _ _ _ h7 k2
    · rw [if_neg ho] at h4
      obtain ⟨h8, rfl⟩ := pure_iff.mp h4
      exact k2

/-- **C74** The translation is a sequence of calls on the top level: order literals and auxiliary literals are introduced, clauses and weight constraints are
posted, variables and linear constraints are added, and constraints are removed. In particular, all that is proved for states that are reached by calls, for
example that undoing and backtracking restore bounds, that tables of order literals are consistent, or that reported answers are correct, also applies to what happens after the translation. -/
theorem C74_calls {steps : Nat} {v kept : List TCon} (hs : SortOk tc) (hw : Reach W) (hq : Translatable W) (hv : InQueue W v)
    (h : solverTranslate cc tc fuel steps v W = .ok ((true, kept), W')) : (∀ ts, ∃ ops, Fed ops W ts W' ts ∧ ∀ op ∈ ops, transOp cc op) ∧ Reach W' ∧ W'.book.levels.length = 1 := by
  have hg := going_start hw hq
  have key : ∀ ts, Trail cc W ts W' := fun ts =>
    trail_split h fun tr W1 ht => chain_trail hs ht hg (lists_news hv) ⟨hw, hq.top, [], .nil _ _, fun _ h => by cases h⟩
  exact ⟨fun ts => (key ts).fed, (key []).reach, (key []).top⟩

/-! ### Answers after the translation -/

theorem trans_ok {ops : List Op} {ts' : List Told} (he : EnvSound cc β) (h : Fed ops W ts W' ts') : (∀ op ∈ ops, transOp cc op) → OkFed β ops W ts W' ts' := by
  induction h with
  | nil => exact fun _ => .nil _ _
  | @cons op ops W W1 W2 ts ts2 r hp hf hx _ ih =>
    intro ht
    have h0 := ht op (List.mem_cons_self ..)
    refine .cons hp hf (fun c hc => ?_) ?_ hx (ih fun o ho => ht o (List.mem_cons_of_mem _ ho))
    · cases op <;> first | (cases hc; done) | exact h0.elim | (injection hc with hc; have : _ = cc := h0; rw [← hc, this]; exact he)
    · cases op <;> first | trivial | exact h0.elim

theorem okFed_trans {ops1 ops2 : List Op} {W1 W2 : World} {ts1 ts2 : List Told} (h : OkFed β ops1 W ts W1 ts1) : OkFed β ops2 W1 ts1 W2 ts2 → OkFed β (ops1 ++ ops2) W ts W2 ts2 := by
  induction h with
  | nil => exact id
  | cons hp hf he ho hx _ ih => exact fun h => .cons hp hf he ho hx (ih h)

theorem good_of_meets (ht : TI W) (hm : Meets β σ W) (hp : AllHold β W.log) : Good β σ W := by
  refine ⟨by have := ht.pos; omega, fun v vs hv k l hl => hm.table v k l ⟨vs, hv, hl⟩, fun v vs hv => ?_, fun i e hi he => ?_, hm.facts, hp⟩
  · have := hm.bound v (List.getElem?_eq_some_iff.mp hv).1
    rwa [(mn_get hv).1, (mn_get hv).2] at this
  · obtain ⟨-, vs, hv, -⟩ := ht.link i e hi he
    exact hm.table _ _ _ ⟨vs, hv, ht.mem i e hi he vs hv⟩

theorem fed_ia {ops : List Op} {ts' : List Told} (h : Fed ops W ts W' ts') : (∀ op ∈ ops, ∀ n, op ≠ .removeConstraint n) → IA W.book → IA W'.book := by
  induction h with
  | nil => exact fun _ h => h
  | cons hp hf hx _ ih =>
    intro hn hi
    exact ih (fun o ho => hn o (List.mem_cons_of_mem _ ho)) (ia_step (fun n e => absurd e (hn _ (List.mem_cons_self ..) n)) hx hi)

theorem holdsAll_left {ops2 : List Op} : ∀ {ops1 : List Op} {n : Nat}, holdsAll β σ n (ops1 ++ ops2) → holdsAll β σ n ops1
  | [], _, _ => trivial
  | _ :: _, _, h => ⟨h.1, holdsAll_left h.2⟩

/-- A solve call in three phases: what is in the program is added, constraints are translated, and an answer is searched for. -/
structure Phases (β : Nat → Bool) (cc : CC) (tc : TConf) (n : Int) (ops1 : List Op) (W0 : World) (ts0 : List Told) (W1 : World) (ops2 : List Op) (W : World) (ts : List Told) : Prop where
  setup : OkFed β ops1 (World.init n) [Told.none] W0 ts0
  ready : Translatable W0
  -- translation with some bounds on the number of steps
  translate : ∃ fuel steps v kept, InQueue W0 v ∧ solverTranslate cc tc fuel steps v W0 = .ok ((true, kept), W1)
  few : W1.vars.length ≤ INVALID_VAR
  search : OkFed β ops2 W1 ts0 W ts
  -- constraints are only removed by the translation
  stay : NoRemoval ops1 ∧ NoRemoval ops2

theorem Phases.all {n : Int} {ops1 ops2 : List Op} {ts0 ts : List Told} {W1 : World} (h : Phases β cc tc n ops1 W0 ts0 W1 ops2 W ts) (hn : 1 < n) (he : EnvSound cc β) (hs : SortOk tc) :
    ∃ ops, OkFed β (ops1 ++ ops) (World.init n) [Told.none] W1 ts0 ∧ OkFed β (ops1 ++ (ops ++ ops2)) (World.init n) [Told.none] W ts ∧ IA W1.book := by
  obtain ⟨fuel, steps, v, kept, hv, hx⟩ := h.translate
  have hr := fed_reach hn (ok_fed h.setup)
  obtain ⟨k1, -, -⟩ := C74_calls hs hr h.ready hv hx
  obtain ⟨ops, k2, k3⟩ := k1 ts0
  have k4 := trans_ok he k2 k3
  refine ⟨ops, okFed_trans h.setup k4, okFed_trans h.setup (okFed_trans k4 h.search), ?_⟩
  refine fed_ia (ok_fed (okFed_trans h.setup k4)) (fun op ho n => ?_) (fun n hn => by cases hn)
  rcases List.mem_append.mp ho with ho | ho
  · exact (h.stay.1 op ho).1 n
  · have := k3 op ho
    rintro rfl
    exact this

/-- **C74** The reported values form a solution of the constraints that were in use before the translation, including the ones that have been translated and removed.
The conditions at the end are the ones of `C64_solution`. -/
theorem C74_solution {n : Int} {ops1 ops2 : List Op} {ts0 : List Told} {t : Told} {ts : List Told} {W1 : World} {ce : CC} (hn : 1 < n) (he : EnvSound cc β) (h0 : cc.level = 0) (hs : SortOk tc)
    (h : Phases β cc tc n ops1 W0 ts0 W1 ops2 W (t :: ts))
    (hf : W.factmap = []) (hb : Passed β W t) (hp : AllHold β W.log) (hi : InRange W) 
    (htot : ∀ k ∈ W.book.cs, k.alive = true → litTrue β k.con.lit → ce.isTrue W.log k.con.lit = true)
    (hx : solverCheckFull ce true W = .ok ((), W')) (hl : W'.log = W.log) :
    AllFixed W ∧ Respects β (lowerOf W) W.log ∧ holdsAll β (lowerOf W) 0 ops1 ∧ Solution β (lowerOf W) W0 ∧
      totalCost β (lowerOf W) W1 = totalCost β (lowerOf W) W0 := by
  obtain ⟨ops, k1, k2, k3⟩ := h.all hn he hs
  obtain ⟨c1, c2, c3, c4⟩ := C64_solution (u := ()) hn k2 hf hb hp hi hx hl
  have g1 := gi_fed (ok_fed k1) (gi_init hn)
  have mean := ok_mean (σ := lowerOf W) h.search g1
  have hs' : ∀ v, v < W.vars.length → lowerOf W v ≤ lowerOf W v ∧ lowerOf W v ≤ upperOf W v := fun v hv => ⟨le_rfl, le_of_eq (c1 v)⟩
  obtain ⟨new, e⟩ := mean.log
  have ha1 : AllHold β W1.log := by rw [e] at hp; exact AllHold.suffix hp
  have good := good_of_meets g1.ti (mean.back hp (meets_end hn (ok_fed k2) hf hb hs')).1 ha1
  have hr1 : Respects β (lowerOf W) W1.log := fun l v k hh => c2 l v k (by rw [e]; exact List.mem_append_right _ hh)
  have sol1 : Solution β (lowerOf W) W1 := by
    refine ⟨good, hr1, fun m c hc ht => ?_⟩
    obtain ⟨x, hx1, ha, rfl⟩ := states_get.mp hc
    obtain ⟨⟨add, k4⟩, -⟩ := added_stays h.search h.stay.2 k3
    have hm : (W.book.cs.map acon)[m]? = some (true, x.con) := by
      rw [k4, List.getElem?_append_left (by rw [List.length_map]; exact (List.getElem?_eq_some_iff.mp hx1).1), List.getElem?_map, hx1]
      simp [acon, ha]
    rw [List.getElem?_map] at hm
    obtain ⟨y, hy, ey⟩ := Option.map_eq_some_iff.mp hm
    injection ey with y1 y2
    have := c4 m y hy y1 (htot y (List.mem_of_getElem? hy) y1 (by rw [y2]; exact ht))
    rw [y2] at this
    cases hk : x.con with
    | minimize a es => intro b hb; cases hb
    | _ => rw [hk] at this; exact this
  obtain ⟨fuel, steps, v, kept, hv, hx⟩ := h.translate
  have hr := fed_reach hn (ok_fed h.setup)
  exact ⟨c1, c2, holdsAll_left c3, C73_enforced he h0 hs hr h.ready hv hx h.few sol1, C73_objective he.tt hs hr h.ready hv hx sol1⟩

section
variable (pow : Int → Int → Res Int) (hpow : ∀ x y z, pow x y = .ok z → -2 ^ 31 ≤ z ∧ z ≤ 2 ^ 31 - 1)
variable (env : BEnv) (penv : PEnv) (Base : (Nat → Bool) → Prop) (as : List TheoryAtom) (s s' : BState) (p p' : PState) (evs : List Event) (bb bb' : Bool)

include hpow in
/-- **C74** (partial as `C72_answers_partial`.) Answers are answers of the program also if constraints are translated: let the theory atoms of a program be parsed and passed on to the solver, let constraints
be translated, and let a total assignment that satisfies what has been posted be accepted by the final check. Then every theory atom of the program has its meaning for the reported values. -/
theorem C74_answers_partial {new : List PEv} (hld : Loaded pow env penv as s s' p p' evs bb bb' new)
    {ops1 ops2 : List Op} {ts0 : List Told} {t : Told} {ts : List Told} {W1 : World} {ce : CC}
    (ho : Oracle env (lowerOf W) s.log s.nextLit Base) (hp : POracle penv (lowerOf W) p.log s.nextLit Base) (hb : Base β)
    -- everything is passed on
    (hpass : ∀ e ∈ new, passedOn ops1 e) (hcl : ∀ c, PEv.clause c ∈ new → ∃ l ∈ c, litTrue β l)
    -- constraints are translated and an assignment is searched for
    (he : EnvSound cc β) (h0 : cc.level = 0) (hs : SortOk tc) (h : Phases β cc tc p'.nextLit ops1 W0 ts0 W1 ops2 W (t :: ts))
    -- the assignment is total and the final check succeeds
    (hf : W.factmap = []) (hps : Passed β W t) (hal : AllHold β W.log) (hir : InRange W) (htot : ∀ k ∈ W.book.cs, k.alive = true → litTrue β k.con.lit → ce.isTrue W.log k.con.lit = true)
    (hx : solverCheckFull ce true W = .ok ((), W')) (hlog : W'.log = W.log)
    -- the reported values
    {τ : Sym → Int} (hτ : ∀ q ∈ s'.symMap, W.getValue q.2 = some (τ q.1)) :
    ∀ a ∈ as, atomHolds pow τ β (env.solverLit a.lit) a := by
  have ha : Agree τ (lowerOf W) s' := by
    intro q hq
    have := hτ q hq
    unfold World.getValue at this
    cases hv : W.vars[q.2]? with
    | none => rw [hv] at this; cases this
    | some vs =>
      rw [hv] at this
      have e : lowerOf W q.2 = vs.lower := by simp [lowerOf, boundsOf, hv]
      rw [e]
      simpa using this
  obtain ⟨hpr, hcap⟩ := Loaded.captures pow hpow env penv Base as s s' p p' evs bb bb' hld (σ := τ) ho hp ha
  have hn : 1 < p'.nextLit := lt_of_lt_of_le ho.pos hcap.mono
  obtain ⟨-, -, h3, h4, -⟩ := C74_solution hn he h0 hs h hf hps hal hir htot hx hlog
  refine hcap.complete β hb fun e he => ?_
  have hpe := hpass e he
  have hw := hpr e he
  cases e with
  | clause c => exact hcl c he
  | simple l co v r st =>
    obtain ⟨c0, hm⟩ := hpe
    obtain ⟨_, hh⟩ := holdsAll_mem h3 _ hm
    exact hh
  | dom l v d =>
    obtain ⟨c0, hm⟩ := hpe
    obtain ⟨_, hh⟩ := holdsAll_mem h3 _ hm
    exact hh
  | con c =>
    intro hl
    obtain ⟨-, h5⟩ := added_stays h.setup h.stay.1 (fun n hn => by cases hn)
    obtain ⟨m, k, g1, g2, g3⟩ := h5 c hpe
    subst g3
    exact h4.holds m k.con (states_get.mpr ⟨k, g1, g2, rfl⟩) hl

end

end Clingcon.Props
