import Verif.Props.First
import Verif.Props.TranslateKept

/-! Property C79: no solution of the program is lost in the first solve step. -/
set_option linter.unusedSimpArgs false
set_option linter.unusedVariables false
namespace Clingcon.Props
open Clingcon Clingcon.Spec

variable {T' T1 : Threads} {ienv : InitEnv} {atoms : List Op} {obj : Option (Int × CoVarVec)} {ws : List Lit} {β : Nat → Bool} {σ : Nat → Int} {W W' : World}

/-- Adding to the program and simplification do not change the bound of the objective. -/
theorem built_bound {op : Op} {r : Bool} (hb : op.built = true ∨ ∃ cc t ck f, op = .simplify cc t ck f) (hx : op.exec W = .ok (r, W')) : W'.book.minimizeBound = W.book.minimizeBound := by
  have fr : frame W' = frame W → W'.book.minimizeBound = W.book.minimizeBound := fun h => congrArg (fun F : List VarState × Book => F.2.minimizeBound) h
  cases op with
  | addVar a b =>
    obtain ⟨_, W2, h1, h2⟩ := SM.bind_ok hx
    obtain ⟨-, rfl⟩ := pure_iff.mp h2
    obtain ⟨v, h3⟩ := discard_iff.mp h1
    injection h3 with h3
    obtain ⟨-, rfl⟩ := Prod.mk.inj h3
    rfl
  | addConstraint c =>
    obtain ⟨_, W2, h1, h2⟩ := SM.bind_ok hx
    obtain ⟨-, rfl⟩ := pure_iff.mp h2
    obtain ⟨v, h3⟩ := discard_iff.mp h1
    obtain ⟨b, rfl, hb⟩ := addConstraint_only h3
    exact congrArg Prod.snd hb
  | simple cc l co v r s => exact fr (fr_addSimple.fr _ _ _ hx)
  | dom cc l v d => exact fr (fr_addDom.fr _ _ _ hx)
  | fresh => rw [(fresh_iff.mp hx).2]
  | post e => rw [(post_iff.mp hx).2]
  | simplify cc t ck f =>
    have : Keep (Kons (konsB W.book)) (solverSimplify cc t ck f) := by unfold solverSimplify; exact keepK_factLoop
    exact congrArg Prod.snd (this.keep _ _ _ hx rfl)
  | _ => obtain hb | ⟨_, _, _, _, hb⟩ := hb <;> cases hb

theorem adm_atoms {ts ts' : List Told} {ops : List Op} (h : AdmFed β σ ops W ts W' ts') : ∀ {W1 : World} {ns ns' : List Nat}, addAtoms ops W ns = .ok (true, W1, ns') →
    W1 = W' ∧ W'.book.minimizeBound = W.book.minimizeBound ∧ NoRemoval ops := by
  induction h with
  | nil =>
    intro W1 ns ns' hx
    injection hx with hx
    injection hx with _ hx
    obtain ⟨rfl, rfl⟩ := Prod.mk.inj hx
    exact ⟨rfl, rfl, fun op h => by cases h⟩
  | @cons op ops W Wm W2 ts ts2 r hp hf he ho hx hrest ih =>
    intro W1 ns ns' h
    unfold addAtoms at h
    split at h
    · rename_i hb
      rw [Bool.and_eq_true] at hb
      obtain ⟨p, h1, h2⟩ := res_bind h
      rw [hx] at h1
      injection h1 with h1
      subst h1
      cases r with
      | false => injection h2 with h2; injection h2 with h2; cases h2
      | true =>
        obtain ⟨e1, e2, e3⟩ := ih h2
        refine ⟨e1, by rw [e2, built_bound (.inl hb.1) hx], fun o ho => ?_⟩
        rcases List.mem_cons.mp ho with rfl | ho
        · exact ⟨(by rintro n rfl; cases hb.1), (by rintro n rfl; cases hb.1)⟩
        · exact e3 o ho
    · cases h

theorem admFed_trans {ops ops' : List Op} {W W1 W2 : World} {ts ts1 ts2 : List Told} (h : AdmFed β σ ops W ts W1 ts1) (h' : AdmFed β σ ops' W1 ts1 W2 ts2) : AdmFed β σ (ops ++ ops') W ts W2 ts2 := by
  induction h with
  | nil => exact h'
  | cons a b c d e _ ih => exact .cons a b c d e (ih h')

/-- The state is of the form required for the translation: all literals and variables mentioned exist, no value is recorded together with the literal that is always true (see C33), and the variables within each term of a distinct constraint differ. -/
structure FormOk (W : World) : Prop where
  known : Known W
  nofact : NoFact W
  terms : ∀ p ∈ states W, Terms p.1

theorem plain_add {a : Int} {es : CoVarVec} {n : Nat} {W W' : World} (h : FormOk W) (hn : 1 < W.nextLit) (hx : addConstraint (.minimize a es) W = .ok (n, W')) : FormOk W' ∧ W'.log = W.log ∧ W'.nextLit = W.nextLit ∧ W'.vars = W.vars := by
  obtain ⟨-, hst⟩ := states_add hx
  obtain ⟨b, e⟩ := addConstraint_eff hx
  have e1 : W'.log = W.log := by rw [e]
  have e2 : W'.nextLit = W.nextLit := by rw [e]
  have e3 : W'.vars = W.vars := by rw [e]
  have e4 : W'.factmap = W.factmap := by rw [e]
  refine ⟨⟨⟨?_, ?_, ?_, fun k c hc => ?_⟩, ?_, fun p hp => ?_⟩, e1, e2, e3⟩
  · rw [e1, e2]; exact h.known.lits
  · rw [e1, e3]; exact h.known.vars
  · rw [e4, e3]; exact h.known.facts
  · rw [hst, List.getElem?_append] at hc
    rw [e2]
    split_ifs at hc
    · exact h.known.cons k c hc
    · have := List.mem_of_getElem? hc
      rw [List.mem_singleton] at this
      injection this with this _
      rw [this]
      show |(1 : Int)| < _
      simpa using hn
  · unfold NoFact; rw [e3]; exact h.nofact
  · rw [hst] at hp
    rcases List.mem_append.mp hp with hp | hp
    · exact h.terms p hp
    · rw [List.mem_singleton.mp hp]
      intro lit es e; cases e

/-- **C79** (partial as `C74_kept_partial`.) No solution is lost in the first solve step. Let an assignment be given that is not excluded by the theory atoms added by `init`. Then it can be extended to what `init` introduces, for any number
of threads, any configuration of the translation, and any objective, such that nothing that is derived by the search of any thread excludes it. -/
theorem C79_kept_partial {n : Int} (hn : 1 < n) (h0 : ienv.cc.level = 0) (hs : SortOk ienv.tc) {Wa : World}
    -- the assignment is not excluded by what is added
    (ha : AdmFed β σ atoms (World.init n) [Told.none] Wa [Told.none]) (hfa : FedAgrees ienv.cc β Wa [Told.none]) (htr : ∀ log, ∀ l ∈ ienv.trail log, l ≠ 0)
    (hob : ∀ a es, obj = some (a, es) → (es.map (·.2)).Nodup)
    -- the state before the translation
    (hp : prepareInit ienv atoms (fresh n) = .ok (true, T1)) (hi : Informed T1.master) (hpl : FormOk T1.master) (hr : Respects β σ T1.master.log)
    (he : ∀ β', agreeBelow T1.master.nextLit β β' → EnvSound ienv.cc β')
    -- the solvers are prepared
    (hx : propInit ienv atoms obj (fresh n) = .ok (true, T', ws)) (hl : T'.master.vars.length ≤ INVALID_VAR) :
    ∃ (β' : Nat → Bool) (σ' : Nat → Int), agreeBelow T1.master.nextLit β β' ∧ (∀ v < T1.master.vars.length, σ' v = σ v) ∧ ∀ S ∈ T'.master :: T'.others, KeptBy β' σ' S [Told.none] := by
  have hrest := C78_start hn
  have hi' : ∀ T1, prepareInit ienv atoms (fresh n) = .ok (true, T1) → Informed T1.master := fun T h => by
    rw [hp] at h; injection h with h; injection h with _ h; rw [← h]; exact hi
  obtain ⟨-, same, -⟩ := C78_threads_partial h0 hs hrest hi' hx
  obtain ⟨T1', T2, T3, kept, a1, r1, m1, c1, m2, i2, d1, e1, e2, e3, e4, f1, -⟩ := init_parts h0 hs hrest hi' hx
  rw [show prepareInit ienv atoms { master := World.init n, others := [] } = _ from hp] at a1
  injection a1 with a1
  injection a1 with _ a1
  subst a1
  have hT : T'.master = T3.master := by
    unfold finishInit at f1
    obtain ⟨os, g1, g2⟩ := res_bind f1
    injection g2 with g2
    subst g2
    rfl
  have hmain := r1.main
  rw [m1] at hmain
  -- the calls up to simplification
  have setup : AdmFed β σ (atoms ++ [.simplify ienv.cc ienv.trail ienv.checkState ienv.fuel]) (World.init n) [Told.none] T1.master [Told.none] ∧ NoRemoval atoms ∧ T1.master.book.minimizeBound = none := by
    unfold prepareInit at hp
    obtain ⟨Ta, b1, hp⟩ := res_bind hp
    injection b1 with b1
    subst b1
    obtain ⟨Tb, b2, hp⟩ := res_bind hp
    injection b2 with b2
    subst b2
    obtain ⟨p, b3, hp⟩ := res_bind hp
    obtain ⟨r, W1, ns⟩ := p
    cases r with
    | false => injection hp with hp; injection hp with hp; cases hp
    | true =>
    obtain ⟨p, b4, hp⟩ := res_bind (show (_ >>= _ : Res (Bool × Threads)) = _ from hp)
    injection b4 with b4
    subst b4
    obtain ⟨p, b5, hp⟩ := res_bind (show (_ >>= _ : Res (Bool × Threads)) = _ from hp)
    obtain ⟨r, W3⟩ := p
    injection hp with hp
    injection hp with hr hp
    have hW : W3 = T1.master := by rw [← hp]
    rw [hW] at b5
    obtain ⟨k1, k2, k3⟩ := adm_atoms ha b3
    subst k1
    have s1 : Sits W1 := (hrest.main.atoms b3).sits
    refine ⟨admFed_trans ha (.cons (op := .simplify ienv.cc ienv.trail ienv.checkState ienv.fuel) h0 ?_ (fun cc h => by injection h with h; rw [← h]; exact hfa) htr b5 (.nil _ _)), k3, ?_⟩
    · show W1.level ≤ _
      have := s1.1.wi.level_top s1.2
      omega
    · rw [built_bound (.inr ⟨_, _, _, _, rfl⟩) (show (Op.simplify ienv.cc ienv.trail ienv.checkState ienv.fuel).exec W1 = .ok (r, T1.master) from b5), k2]
      rfl
  have hlow : 1 < T1.master.nextLit := hmain.sits.1.ti.pos
  -- the objective
  have key : ∃ ops, AdmFed β σ ops (World.init n) [Told.none] T2.master [Told.none] ∧ NoRemoval ops ∧ FormOk T2.master ∧ T2.master.log = T1.master.log ∧ T2.master.nextLit = T1.master.nextLit ∧ T2.master.vars = T1.master.vars := by
    have hnr : NoRemoval (atoms ++ [.simplify ienv.cc ienv.trail ienv.checkState ienv.fuel]) := by
      intro op ho
      rcases List.mem_append.mp ho with ho | ho
      · exact setup.2.1 op ho
      · rw [List.mem_singleton.mp ho]; exact ⟨(fun _ e => by cases e), (fun _ e => by cases e)⟩
    obtain ⟨-, -, -, hc⟩ := addObjective_main hmain m1 c1
    rcases hc with ⟨e, e'⟩ | ⟨a, es, k, e, hadd, -⟩
    · rw [e]; exact ⟨_, setup.1, hnr, hpl, rfl, rfl, rfl⟩
    · obtain ⟨q1, q2, q3, q4⟩ := plain_add hpl hlow hadd
      refine ⟨_, admFed_trans setup.1 (.cons (op := .addConstraint (.minimize a es)) (r := true) ⟨hmain.sits.2, hmain.quiet⟩ trivial (fun cc h => by cases h) ⟨hob a es e, ?_⟩ ?_ (.nil _ _)), ?_, q1, q2, q3, q4⟩
      · rw [setup.2.2]
        intro b hb; cases hb
      · unfold Op.exec
        rw [bind_iff]
        exact ⟨(), _, discard_iff.mpr ⟨k, hadd⟩, rfl⟩
      · intro op ho
        rcases List.mem_append.mp ho with ho | ho
        · exact hnr op ho
        · rw [List.mem_singleton.mp ho]; exact ⟨(fun _ e => by cases e), (fun _ e => by cases e)⟩
  obtain ⟨ops, k1, k2, k3, k4, k5, k6⟩ := key
  obtain ⟨β', σ', g1, g2, g3⟩ := C74_kept_partial hn k1 (by rw [k4]; exact hr) k2 (by rw [k5]; exact he) h0 hs ⟨m2.sits.2, m2.quiet.1, m2.quiet.2, i2⟩ k3.known k3.nofact k3.terms
    ⟨m2.once.map (fun a b e => by injection e), fun n => by rw [← m2.listed n]; simp, fun t ht => by obtain ⟨n, -, rfl⟩ := List.mem_map.mp ht; exact ⟨n, rfl⟩⟩ d1 (by rw [← hT]; exact hl)
  rw [k5] at g1
  rw [k6] at g2
  refine ⟨β', σ', g1, g2, fun S hS => ?_⟩
  have hS' : S = T3.master := by
    rw [← hT]
    rcases List.mem_cons.mp hS with h | h
    · exact h
    · rw [same] at h
      exact (List.mem_replicate.mp h).2
  rw [hS']
  exact g3

section
variable (pow : Int → Int → Res Int) (hpow : ∀ x y z, pow x y = .ok z → -2 ^ 31 ≤ z ∧ z ≤ 2 ^ 31 - 1)
variable (env : BEnv) (penv : PEnv) (Base : (Nat → Bool) → Prop) (as : List TheoryAtom) (s s' : BState) (p p' : PState) (evs : List Event) (bb bb' : Bool)

include hpow in
/-- **C79** (partial as `C74_program_partial`.) No solution of the program is lost in the first solve step. Let a truth assignment to the literals of the program and an assignment to the symbols be given such that all theory atoms have their
meaning. Then there is an extension to the auxiliary literals such that if `init` only adds what the constraint builder has passed on, then there is an extension to what `init` introduces such that nothing derived later by any of the threads
excludes it. -/
theorem C79_program_partial {new : List PEv} (hld : Loaded pow env penv as s s' p p' evs bb bb' new) {σ : Sym → Int} {τ : Nat → Int} (ha : Agree σ τ s')
    (ho : Oracle env τ s.log s.nextLit Base) (hp : POracle penv τ p.log s.nextLit Base)
    {β : Nat → Bool} (hb : Base β) (hsol : ∀ a ∈ as, atomHolds pow σ β (env.solverLit a.lit) a) :
    ∃ β', agreeBelow s.nextLit β β' ∧ (∀ c, PEv.clause c ∈ new → ∃ l ∈ c, litTrue β' l) ∧
      ∀ β1 ienv atoms obj Wa T1 T' ws, agreeBelow p'.nextLit β' β1 → ienv.cc.level = 0 → SortOk ienv.tc →
        -- what is added
        PostFed new β1 τ atoms (World.init p'.nextLit) [Told.none] Wa [Told.none] → FedAgrees ienv.cc β1 Wa [Told.none] → (∀ log, ∀ l ∈ ienv.trail log, l ≠ 0) →
        (∀ a es, obj = some (a, es) → (es.map (·.2)).Nodup) →
        -- the state before the translation
        prepareInit ienv atoms (fresh p'.nextLit) = .ok (true, T1) → Informed T1.master → FormOk T1.master → Respects β1 τ T1.master.log →
        (∀ β', agreeBelow T1.master.nextLit β1 β' → EnvSound ienv.cc β') →
        -- the solvers are prepared
        propInit ienv atoms obj (fresh p'.nextLit) = .ok (true, T', ws) → T'.master.vars.length ≤ INVALID_VAR →
        ∃ (β2 : Nat → Bool) (τ2 : Nat → Int), agreeBelow T1.master.nextLit β1 β2 ∧ (∀ v < T1.master.vars.length, τ2 v = τ v) ∧ ∀ S ∈ T'.master :: T'.others, KeptBy β2 τ2 S [Told.none] := by
  obtain ⟨hpr, hcap⟩ := Loaded.captures pow hpow env penv Base as s s' p p' evs bb bb' hld ho hp ha
  obtain ⟨β', a1, k1⟩ := hcap.sound β hb hsol
  refine ⟨β', a1, fun c hc => k1 _ hc, fun β1 ienv atoms obj Wa T1 T' ws a2 h0 hs hrun hfa htr hob hprep hi hpl hr he hx hl => ?_⟩
  have k2 : ∀ e ∈ new, pholds β1 τ e := fun e he => (hcap.locality e he _ _ a2).1 (k1 e he)
  exact C79_kept_partial (lt_of_lt_of_le ho.pos hcap.mono) h0 hs (postFed_admFed hpr k2 hrun) hfa htr hob hprep hi hpl hr he hx hl

end

/-! ### A concrete case -/

def firstObj : Option (Int × CoVarVec) := some (0, [(1, 1)])

def firstP : Threads := match prepareInit firstEnv firstAtoms (fresh 4) with | .ok (_, T) => T | _ => fresh 4

def firstO : Threads := initResult firstEnv firstAtoms firstObj (fresh 4)

theorem firstP_ok : prepareInit firstEnv firstAtoms (fresh 4) = .ok (true, firstP) := by
  have h : (match prepareInit firstEnv firstAtoms (fresh 4) with | .ok (b, _) => b | _ => false) = true := by decide +kernel
  unfold firstP
  generalize prepareInit firstEnv firstAtoms (fresh 4) = x at h ⊢
  cases x with
  | error e => cases h
  | ok p => obtain ⟨b, T⟩ := p; cases h; rfl

theorem first_post : PostFed ansPosts okβ ansVals firstAtoms (World.init 4) [Told.none] ok6 [Told.none] := by
  have i1 : EnvSound idle okβ := idle_sound (by decide)
  refine .cons (Op.preB_iff.mp (by decide +kernel)) trivial (fun cc h => by cases h) (by constructor <;> decide +kernel) (after_eq (r := true) (by decide +kernel)) ?_
  refine .cons (Op.preB_iff.mp (by decide +kernel)) trivial (fun cc h => by cases h) (by constructor <;> decide +kernel) (after_eq (r := true) (by decide +kernel)) ?_
  refine .cons (Op.preB_iff.mp (by decide +kernel)) ⟨by decide +kernel, ?_⟩ ?_ ⟨rfl, by simp [ansPosts]⟩ (after_eq (r := true) (by decide +kernel)) ?_
  · intro t ht l hl
    have ht : t ∈ [Told.none] := ht
    rw [List.mem_singleton] at ht
    subst ht
    exact hl.elim
  · rintro cc ⟨⟩
    exact ans_agree i1 idle_mono (by decide +kernel) ans_none
  refine .cons (Op.preB_iff.mp (by decide +kernel)) ?_ ?_ ⟨rfl, by simp [ansPosts]⟩ (after_eq (r := true) (by decide +kernel)) ?_
  · show _ ≤ _
    decide +kernel
  · rintro cc ⟨⟩
    exact ans_agree i1 idle_mono (by decide +kernel) ans_none
  refine .cons (Op.preB_iff.mp (by decide +kernel)) ⟨by decide +kernel, ?_⟩ ?_ ⟨rfl, by simp [ansPosts]⟩ (after_eq (r := true) (by decide +kernel)) ?_
  · intro t ht l hl
    have ht : t ∈ [Told.none] := ht
    rw [List.mem_singleton] at ht
    subst ht
    exact hl.elim
  · rintro cc ⟨⟩
    exact ans_agree i1 idle_mono (by decide +kernel) ans_none
  refine .cons (Op.preB_iff.mp (by decide +kernel)) trivial (fun cc h => by cases h) ⟨by simp [ansPosts], fun _ _ _ _ _ _ _ e => by cases e⟩ (after_eq (r := true) (by decide +kernel)) ?_
  exact .nil _ _

/-- `FormOk` for a state is computable. -/
theorem formOk_of {W : World} (h1 : (W.log.all (fun x => (evLits x).all (fun l => decide (|l| < W.nextLit)))) = true)
    (h2 : W.log.all (fun e => match e with | .order _ v _ => decide (v < W.vars.length) | _ => true) = true)
    (h3 : W.factmap = []) (h4 : (states W).all (fun p => decide (|p.1.lit| < W.nextLit) && (match p.1 with | .distinct .. => false | _ => true)) = true)
    (h5 : W.vars.all (fun vs => vs.with.all (fun p => decide (p.2 ≠ TRUE_LIT))) = true) : FormOk W := by
  refine ⟨⟨fun x hx l hl => ?_, fun l v k hm => ?_, fun f v k p hm => (by rw [h3] at hm; cases hm), fun n c hc => ?_⟩, fun v vs k l hv hm => ?_, fun p hp => ?_⟩
  · simpa using List.all_eq_true.mp (List.all_eq_true.mp h1 x hx) l hl
  · simpa using List.all_eq_true.mp h2 _ hm
  · have := List.all_eq_true.mp h4 _ (List.mem_of_getElem? hc)
    rw [Bool.and_eq_true] at this
    exact of_decide_eq_true this.1
  · simpa using List.all_eq_true.mp (List.all_eq_true.mp h5 vs (List.mem_of_getElem? hv)) _ hm
  · have := List.all_eq_true.mp h4 _ hp
    rw [Bool.and_eq_true] at this
    intro lit es e
    rw [e] at this
    cases this.2

/-- The hypotheses of `C79_kept_partial` and of the conclusion of `C79_program_partial` are met, with two threads and the objective `y`. -/
example : (states firstO.master).length = 2 ∧ ∃ (β' : Nat → Bool) (σ' : Nat → Int), agreeBelow 6 okβ β' ∧ σ' 0 = 0 ∧ σ' 1 = 1 ∧ KeptBy β' σ' firstO.master [Told.none] := by
  obtain ⟨ws, hx⟩ := initResult_ok (env := firstEnv) (atoms := firstAtoms) (new := firstObj) (T0 := fresh 4) (by decide +kernel)
  have hx : propInit firstEnv firstAtoms firstObj (fresh 4) = .ok (true, firstO, ws) := hx
  have hag : Agree ansSyms ansVals ansEnd := by
    intro q hq
    simp only [ansEnd, List.mem_cons, List.not_mem_nil, or_false] at hq
    rcases hq with rfl | rfl <;> decide
  obtain ⟨hpr, -⟩ := Loaded.captures noPow (by intro x y z h; cases h) exEnv plainEnv (fun β => β 1 = true) ansProgram ansStart ansEnd ⟨4, []⟩ ⟨4, ansPosts⟩ ansEvs true true ans_loaded
      (σ := ansSyms) (τ := ansVals) (ans_oracle _) (ans_poracle _) hag
  have hh : ∀ e ∈ ansPosts, pholds okβ ansVals e := by
    intro e he
    simp only [ansPosts, List.mem_cons, List.not_mem_nil, or_false] at he
    rcases he with rfl | rfl | rfl | rfl
    · show (_ ↔ _)
      simp [litTrue, okβ, ansVals]
    · exact fun _ => ⟨(1, 2), by simp, by decide, by decide⟩
    · exact fun _ => by decide
    · exact fun _ => by show wsum _ _ ≤ _; decide
  have hen : firstP.master.nextLit = 6 := by decide +kernel
  have hlen : firstP.master.vars.length = 2 := by decide +kernel
  obtain ⟨β', σ', a1, a2, a3⟩ := C79_kept_partial (ienv := firstEnv) (by decide) rfl (fun l => List.Perm.refl l) (postFed_admFed hpr hh first_post)
    (ans_agree (idle_sound (by decide)) idle_mono (by decide +kernel) ans_none) (by intro log l hl; cases hl) (by intro a es e; injection e with e; injection e with _ e; rw [← e]; decide)
    firstP_ok (informedB_ok (by decide +kernel)) (formOk_of (by decide +kernel) (by decide +kernel) (by decide +kernel) (by decide +kernel) (by decide +kernel)) (respects_of (by decide +kernel))
    (fun β' hb => idle_sound (by rw [← hb 1 (by rw [hen]; decide)]; decide)) hx (by decide +kernel)
  exact ⟨by decide +kernel, β', σ', by rw [hen] at a1; exact a1, a2 0 (by rw [hlen]; decide), a2 1 (by rw [hlen]; decide), a3 _ List.mem_cons_self⟩

end Clingcon.Props
