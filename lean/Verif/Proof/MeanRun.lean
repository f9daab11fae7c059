import Verif.Proof.MeanFacts
import Verif.Proof.GivenOps
import Verif.Spec.OkRuns

/-! Sequences of calls, going back in time. -/
set_option linter.unusedSimpArgs false
set_option linter.unusedVariables false
set_option linter.unnecessarySeqFocus false
namespace Clingcon
open Spec VarState

variable {α γ : Type} {W W0 W1 W' : World} {cc : CC} {r : Bool} {β : Nat → Bool} {σ : Nat → Int} {z : Prop} {ts : List Told}

theorem mf_integrateFacts (he : EnvSound cc β) : Kw (MF β σ (cc.level = 0) W0) (integrateFacts cc) := by
  have := fun l => mf_updateDomain (σ := σ) (W0 := W0) he (l := l)
  have hP := mf_prim0 (β := β) (σ := σ) (z := cc.level = 0) (W0 := W0)
  unfold integrateFacts
  kw_auto
  exact this _

theorem mf_solverCheck (he : EnvSound cc β) {b : Bool} {n : Nat} : Kw (MF β σ (cc.level = 0) W0) (solverCheck cc b n) :=
  kwi_solverCheck mf_prim0 (mf_integrateFacts he)

theorem mf_updateBounds (he : EnvSound cc β) {os : List VarState} {b : Bool} {n : Nat} : Kw (MF β σ (cc.level = 0) W0) (updateBounds cc os b n) :=
  kwi_updateBounds mf_prim0 (mf_integrateFacts he)

theorem mf_propagateLits (he : EnvSound cc β) {ls : List Int} : Kw (MF β σ (cc.level = 0) W0) (propagateLits cc ls) := by
  have hP := mf_prim0 (β := β) (σ := σ) (z := cc.level = 0) (W0 := W0)
  induction ls with
  | nil => exact Kw.pure
  | cons l ls ih =>
    have h1 := mf_updateDomain (σ := σ) (W0 := W0) he (l := l)
    have h2 : Kw (MF β σ (cc.level = 0) W0) (propagateLit cc l) := by unfold propagateLit; kw_auto
    unfold propagateLits; kw_auto

theorem mf_pushLevel : Kw (MF β σ (cc.level = 0) W0) (pushLevel cc.level) := by
  refine ⟨fun W a W' h hm => ?_⟩
  unfold pushLevel at h
  rw [bind_iff] at h
  obtain ⟨l, W1, h1, h⟩ := h
  obtain ⟨el, rfl⟩ := curLevel_level h1
  rcases whenS_iff.mp h with ⟨hc, h⟩ | ⟨-, rfl⟩
  · rw [modify_iff.mp h]
    refine ⟨mean_prim.levels _ _ hm.1, fun hz => ?_⟩
    rw [hz] at hc
    simp at hc
  · exact hm

theorem mf_solverPropagate (he : EnvSound cc β) {ls : List Int} : Kw (MF β σ (cc.level = 0) W0) (solverPropagate cc ls) := by
  unfold solverPropagate
  exact Kw.bind mf_pushLevel (fun _ => mf_propagateLits he)

theorem mf_factLoop (he : EnvSound cc β) {trail : List SEv → List Int} {b : Bool} {f : Nat} : ∀ {n : Nat}, Kw (MF β σ (cc.level = 0) W0) (factLoop cc trail b f n) := by
  have hP := mf_prim0 (β := β) (σ := σ) (z := cc.level = 0) (W0 := W0)
  intro n
  induction n with
  | zero => exact Kw.ub
  | succ n ih =>
    have h1 := fun ls => mf_solverPropagate (σ := σ) (W0 := W0) he (ls := ls)
    have h2 := mf_solverCheck (σ := σ) (W0 := W0) he (b := b) (n := f)
    unfold factLoop
    refine Kw.bind (by kw_auto) (fun _ => ?_)
    split
    · exact Kw.pure
    refine Kw.bind Kw.get (fun X => ?_)
    dsimp only
    split
    · exact Kw.pure
    refine Kw.bind (h1 _) (fun _ => ?_)
    split
    · exact Kw.pure
    refine Kw.bind ⟨fun W u W' h hp => ?_⟩ (fun _ => by kw_auto)
    obtain rfl := modify_iff.mp h
    exact ⟨hp.1.same (new := []) rfl rfl rfl rfl rfl (by simp), fun hz => (hp.2 hz).vars rfl rfl⟩

/-! ### Constraints over one variable -/

theorem mean_useFact {t : Bool} {var : Nat} {value : Int} {vs : VarState} (hi : TI W) (hv : W.vars[var]? = some vs) (hno : ∀ l, (value, l) ∉ vs.with)
    (h : useFact t var value W = .ok (r, W')) : Mean β σ W W' := by
  have ti := hi.ti_useFact hv hno h
  have fr := fr_useFact.fr _ _ _ h
  unfold useFact at h
  simp only [smok] at h
  obtain ⟨ps, W1, ⟨vs1, g1, rfl, rfl⟩, _, W2, rfl, vs2, W3, ⟨g2, rfl⟩, vs', W4, ⟨g3, rfl⟩, _, W5, rfl, -, rfl⟩ := h
  dsimp only at g2
  rw [hv] at g2; injection g2 with g2; subst g2
  have h1 : (if t then TRUE_LIT else -TRUE_LIT : Int).natAbs = 1 := by cases t <;> rfl
  have hs := setLiteral_eff (hi.wf _ _ hv) (by intro h0; rw [h0] at h1; cases h1) g3
  refine ⟨ti, ⟨[], rfl⟩, by rw [frame_len fr], fun ha hm => ⟨⟨fun v k l ho => ?_, meets_frame fr hm.bound, fun f v k p hp => hm.facts f v k p (List.mem_append_left _ hp)⟩, fun _ _ _ hh => Or.inl hh⟩⟩
  rcases ord_set' (vs' := vs') (W' := { W with vars := W.vars.set var vs' }) rfl hv ho with ⟨rfl, hq⟩ | hq
  · refine hm.table v k l (ord_at rfl hv ((hs.mem _ _).mpr ?_))
    rw [if_neg]
    · exact hq
    · rintro rfl; exact hno _ hq
  · exact hm.table v k l hq

theorem freeLit_log {lit l : Int} {var : Nat} {value : Int} (h : freeLit cc lit var value W = .ok (some l, W')) :
    W'.vars = W.vars ∧ W'.factmap = W.factmap ∧ ∃ new, W'.log = new ++ W.log ∧ ∀ m v k, SEv.order m v k ∈ new → m = l ∧ v = var ∧ k = value := by
  unfold freeLit at h
  simp only [smok] at h
  obtain ⟨e, W1, ⟨rfl, rfl⟩, h⟩ := h
  rcases h with ⟨hinv, e, rfl⟩ | ⟨-, l', W2, ⟨rfl, rfl⟩, _, W3, rfl, h⟩
  · exact ⟨rfl, rfl, [], rfl, by simp⟩
  · obtain ⟨b, W4, ⟨rfl, rfl⟩, h⟩ := h
    rcases h with ⟨-, e, rfl⟩ | ⟨-, b, W5, ⟨rfl, rfl⟩, h⟩
    · cases e
    rcases h with ⟨-, e, rfl⟩ | ⟨-, e, rfl⟩
    · cases e
    · injection e with e
      subst e
      exact ⟨rfl, rfl, [_, _, _, _], rfl, by simp⟩

theorem mean_useLit {lit : Int} {var : Nat} {value : Int} {vs : VarState} (hi : TI W) (hl : 1 < lit.natAbs) (hs : (lit.natAbs : Int) < W.nextLit)
    (hv : W.vars[var]? = some vs) (hno : ∀ l, (value, l) ∉ vs.with) (h : useLit cc lit var value W = .ok (true, W')) : Mean β σ W W' := by
  have ti := hi.ti_useLit hl hs hv hno h
  have fr := fr_useLit.fr _ _ _ h
  unfold useLit at h
  rw [bind_iff] at h
  obtain ⟨o, W1, h1, h⟩ := h
  obtain ⟨t1, ev, hf⟩ := hi.ti_freeLit hl hs h1
  cases o with
  | none => cases h
  | some l =>
    obtain ⟨l1, l2, l3⟩ := hf l rfl
    obtain ⟨-, fm, new, hlog, hnew⟩ := freeLit_log h1
    simp only [smok] at h
    obtain ⟨_, W2, rfl, _, W3, rfl, _, W4, ⟨-, vs1, g1, -, rfl⟩, vs2, W5, ⟨g2, rfl⟩, vs', W6, ⟨g3, rfl⟩, _, W7, rfl, -, rfl⟩ := h
    dsimp only at g1 g2
    rw [ev, hv] at g2
    injection g2 with g2; subst g2
    have hs' := setLiteral_eff (hi.wf _ _ hv) (by rintro rfl; simp at l1) g3
    have hv1 : W1.vars[var]? = some vs := by rw [ev]; exact hv
    refine ⟨ti, ⟨[_, _, _] ++ new, by show _ = _; dsimp only; rw [hlog]; rfl⟩, by rw [frame_len fr], fun ha hm => ⟨⟨fun v k m ho => ?_, meets_frame fr hm.bound, fun f v k p hp => hm.facts f v k p (by
      show _ ∈ W1.factmap; rw [fm]; exact hp)⟩, fun m v k hh => ?_⟩⟩
    · rw [← ord_vars ev] at ho
      rcases ord_set' (vs' := vs') (W' := { W1 with vars := W1.vars.set var vs' }) rfl hv1 ho with ⟨rfl, hq⟩ | hq
      · refine hm.table v k m (ord_at rfl hv1 ((hs'.mem _ _).mpr ?_))
        rw [if_neg]
        · exact hq
        · rintro rfl; exact hno _ hq
      · exact hm.table v k m hq
    · have key : litTrue β l ↔ σ var ≤ value := hm.table var value l (ord_at rfl hv1 ((hs'.mem _ _).mpr (by rw [if_pos rfl])))
      dsimp only at hh
      rw [hlog] at hh
      simp only [List.mem_cons, List.mem_append, reduceCtorEq, false_or, SEv.order.injEq] at hh
      rcases hh with ⟨rfl, rfl, rfl⟩ | hh | hh
      · exact Or.inr key
      · obtain ⟨rfl, rfl, rfl⟩ := hnew m v k hh
        exact Or.inr key
      · exact Or.inl hh

theorem mean_addSimple {lit co rhs : Int} {var : Nat} {s : Bool} (hi : TI W) (h0 : lit ≠ 0) (hs : (lit.natAbs : Int) < W.nextLit)
    (ht : cc.value W.log TRUE_LIT = some true) (h : addSimple cc lit co var rhs s W = .ok (true, W')) : Mean β σ W W' := by
  unfold addSimple at h
  rw [bind_iff] at h
  obtain ⟨f, W0, h0', h⟩ := h
  obtain ⟨rfl, rfl⟩ := qFalse_iff.mp h0'
  split at h
  · obtain ⟨-, rfl⟩ := pure_iff.mp h; exact Mean.refl hi
  rw [bind_iff] at h
  obtain ⟨truth, W1, h1, h⟩ := h
  obtain ⟨ht1, rfl⟩ := qValue_iff.mp h1
  dsimp only at h
  rw [bind_iff] at h
  obtain ⟨direct, W2, h2, h⟩ := h
  have hP := (mean_prim0 (β := β) (σ := σ) (W0 := W1))
  cases direct with
  | true =>
    obtain ⟨rfl, vs, hv, hno⟩ := canReuse_none hi.wf h2
    rw [if_pos rfl] at h
    cases truth with
    | some t => exact mean_useFact hi hv hno h
    | none =>
      dsimp only at h
      have hne : lit.natAbs ≠ 1 := by
        intro hn
        have ha : cc.atom W2.log 1 = some true := by
          unfold CC.value at ht
          rw [if_pos (by decide)] at ht
          exact ht
        unfold CC.value at ht1
        have e : (if co > 0 then lit else -lit).natAbs = 1 := by split_ifs <;> omega
        rw [e, ha] at ht1
        split_ifs at ht1 <;> cases ht1
      exact mean_useLit (lit := if co < 0 then -lit else lit) hi (by split_ifs <;> omega) (by split_ifs <;> omega) hv hno h
  | false =>
    have hi2 := (kw_canReuse hP).kw _ _ _ h2 (Mean.refl hi)
    rw [if_neg (by decide)] at h
    refine Kw.kw (P := Mean β σ W1) ?_ _ _ _ h hi2
    kw_auto

/-! ### Steps -/

theorem mean_addVar {lo hi : Int} {n : Nat} (hti : TI W) (h : addVar lo hi W = .ok (n, W')) :
    Mean β σ W W' ∧ n = W.vars.length ∧ W'.vars.length = W.vars.length + 1 ∧ (Meets β σ W' → lo ≤ σ n ∧ σ n ≤ hi) := by
  have ti := hti.ti_addVar h
  injection h with h
  obtain ⟨rfl, rfl⟩ := Prod.mk.inj h
  have old : ∀ {v : Nat}, v < W.vars.length → (W.vars ++ [{ lower := lo, upper := hi }])[v]? = W.vars[v]? := fun h => List.getElem?_append_left h
  refine ⟨⟨ti, ⟨[], rfl⟩, by simp, fun ha hm => ⟨⟨fun v k l hl => ?_, fun v hv => ?_, hm.facts⟩, fun _ _ _ hh => Or.inl hh⟩⟩, rfl, by simp, fun hm => ?_⟩
  · obtain ⟨vs, a, b⟩ := hl
    exact hm.table v k l ⟨vs, (old (List.getElem?_eq_some_iff.mp a).1).trans a, b⟩
  · have := hm.bound v (by simp; omega)
    have g : W.vars[v]? = some W.vars[v] := List.getElem?_eq_getElem hv
    have g' := (old hv).trans g
    rw [(mn_get (W := { W with vars := _, book := _ }) g').1, (mn_get (W := { W with vars := _, book := _ }) g').2] at this
    rw [(mn_get g).1, (mn_get g).2]
    exact this
  · have := hm.bound W.vars.length (by simp)
    have g' : (W.vars ++ [{ lower := lo, upper := hi }])[W.vars.length]? = some { lower := lo, upper := hi } := by simp
    rw [(mn_get (W := { W with vars := _, book := _ }) g').1, (mn_get (W := { W with vars := _, book := _ }) g').2] at this
    exact this

theorem MF.refl (h : GI W ts) (hl : W.level ≤ cc.level) : MF β σ (cc.level = 0) W W := by
  refine ⟨Mean.refl h.ti, fun hz => h.wi.flat ?_⟩
  by_contra hc
  have := h.wi.level_deep hc
  omega

theorem Mean.grown {W0 W1 W2 : World} {e : SEv} (h : Mean β σ W0 W1) (ti : TI W2) (h1 : W2.vars = W1.vars) (h2 : W2.book = W1.book) (h3 : W2.factmap = W1.factmap) (h4 : W2.log = e :: W1.log)
    (he : ∀ l v k, e ≠ .order l v k) : Mean β σ W0 W2 := by
  obtain ⟨new, e1⟩ := h.log
  refine ⟨ti, ⟨e :: new, by rw [h4, e1]; rfl⟩, by rw [h1]; exact h.len, fun ha hm => ?_⟩
  have hf : frame W2 = frame W1 := by unfold frame; rw [h1, h2]
  have ha' : AllHold β W1.log := fun x hx => ha x (by rw [h4]; exact List.mem_cons_of_mem _ hx)
  obtain ⟨m1, o1⟩ := h.back ha' ⟨fun v k l hl => hm.table v k l (by unfold OrdLit at hl ⊢; rw [h1]; exact hl), fun v hv => by
    have := hm.bound v (by rw [h1]; exact hv); rw [hf] at this; exact this, fun f v k p hq => hm.facts f v k p (by rw [h3]; exact hq)⟩
  refine ⟨m1, fun l v k hl => ?_⟩
  rw [h4] at hl
  rcases List.mem_cons.mp hl with hl | hl
  · exact absurd hl.symm (he l v k)
  · exact o1 l v k hl

theorem mean_step {op : Op} (h : GI W ts) (hp : op.pre W) (hf : feedPre ts W op) (he : ∀ cc, opEnv op = some cc → EnvSound cc β) (ho : okOp r op)
    (hx : op.exec W = .ok (r, W')) : Mean β σ W W' := by
  have hP := mean_prim (β := β) (σ := σ) (W0 := W)
  have hP0 := hP.toPrim0
  cases op with
  | addVar lo hi =>
    obtain ⟨_, W1, g1, g2⟩ := SM.bind_ok hx
    obtain ⟨-, rfl⟩ := pure_iff.mp g2
    obtain ⟨v, g3⟩ := discard_iff.mp g1
    exact (mean_addVar h.ti g3).1
  | simple cc l co v k s =>
    obtain ⟨rfl, -, -⟩ := ho
    exact mean_addSimple h.ti hp.1 hp.2.1 hp.2.2 hx
  | update n => exact ho.elim
  | propagate cc ls => exact ((mf_solverPropagate (he cc rfl)).kw _ _ _ hx (MF.refl h hf.1)).1
  | check cc b n => exact ((mf_solverCheck (he cc rfl)).kw _ _ _ hx (MF.refl h hf)).1
  | updateBounds cc o b n => exact ((mf_updateBounds (he cc rfl)).kw _ _ _ hx (MF.refl h hf)).1
  | simplify cc t b n => exact ((mf_factLoop (he cc rfl)).kw _ _ _ hx (MF.refl h hf)).1
  | fresh =>
    have ti := h.ti.exec hp hx
    rw [(fresh_iff.mp hx).2] at ti ⊢
    exact (Mean.refl h.ti).grown (e := .lit W.nextLit) ti rfl rfl rfl rfl (by intros; simp)
  | post e =>
    have ti := h.ti.exec hp hx
    rw [(post_iff.mp hx).2] at ti ⊢
    exact (Mean.refl h.ti).grown (e := e) ti rfl rfl rfl rfl (posted_order hp.2)
  | undo => exact Kw.kw (P := Mean β σ W) (by unfold Op.exec; kw_auto) _ _ _ hx (Mean.refl h.ti)
  | _ => exact Kw.kw (P := Mean β σ W) (by unfold Op.exec; kw_auto) _ _ _ hx (Mean.refl h.ti)

theorem step_len {op : Op} (hx : op.exec W = .ok (r, W')) : W'.vars.length = varsAfter W.vars.length op := by
  cases op with
  | addVar lo hi =>
    obtain ⟨_, W1, g1, g2⟩ := SM.bind_ok hx
    obtain ⟨-, rfl⟩ := pure_iff.mp g2
    obtain ⟨v, g3⟩ := discard_iff.mp g1
    injection g3 with g3
    obtain ⟨rfl, rfl⟩ := Prod.mk.inj g3
    simp [varsAfter]
  | simple cc l co v k s => exact frame_len (fr_addSimple.fr _ _ _ hx)
  | fresh => exact frame_len (fr_fresh.fr _ _ _ hx)
  | post e => exact frame_len (fr_post.fr _ _ _ hx)
  | undo =>
    obtain ⟨_, W1, g1, g2⟩ := SM.bind_ok hx
    obtain ⟨-, rfl⟩ := pure_iff.mp g2
    exact len_solverUndo g1
  | _ =>
    have tg : Tight (frame W) (frame W') := by
      refine (kw_execD (tight_prim (F := frame W)).toPrimD (fun W n h => h.trans (Tight.of (F := frame W) (F' := frame { W with book.trailOffset := n }) rfl)) ?_ ?_ ?_ ?_ ?_).kw _ _ _ hx (Tight.refl _) <;> intros <;> first | contradiction | (intro e; cases e)
    have this : W'.vars.length = W.vars.length := by
      have := tg.1
      simpa only [frame, List.length_map] using this
    exact this

theorem ok_fed {ops : List Op} {ts' : List Told} (h : OkFed β ops W ts W' ts') : Fed ops W ts W' ts' := by
  induction h with
  | nil => exact .nil _ _
  | cons hp hf _ _ hx _ ih => exact .cons hp hf hx ih

theorem ok_mean {ops : List Op} {ts' : List Told} (h : OkFed β ops W ts W' ts') : GI W ts → Mean β σ W W' := by
  induction h with
  | nil => exact fun h => Mean.refl h.ti
  | cons hp hf he ho hx _ ih => exact fun h => (mean_step h hp hf he ho hx).trans (ih (gi_step h hp hf hx))

theorem Meets.inv (h : Meets β σ W) (ht : TI W) (ha : AllHold β W.log) : Inv β σ W := by
  refine ⟨⟨by have := ht.pos; omega, fun v vs hv k l hl => h.table v k l ⟨vs, hv, hl⟩, fun v vs hv => ?_, fun i e he hp => ?_, h.facts, ha⟩, ht.wf⟩
  · have := h.bound v (List.getElem?_eq_some_iff.mp hv).1
    rw [(mn_get hv).1, (mn_get hv).2] at this
    exact this
  · obtain ⟨-, vs, hv, -⟩ := ht.link i e he hp
    exact h.table e.var e.value _ ⟨vs, hv, ht.mem i e he hp vs hv⟩

theorem takeBounds_len : ∀ {os : List VarState} {v : Nat} {W W' : World}, takeBounds cc v os W = .ok (true, W') → os = [] ∨ v + os.length ≤ W.vars.length
  | [], _, _, _, _ => Or.inl rfl
  | o :: os, v, W, W', h => by
    right
    unfold takeBounds at h
    rw [bind_iff] at h
    obtain ⟨a, W1, h1, h⟩ := h
    cases a with
    | false => cases h
    | true =>
    simp only [Bool.not_true, Bool.false_eq_true, if_false] at h
    rw [bind_iff] at h
    obtain ⟨b, W2, h2, h⟩ := h
    cases b with
    | false => cases h
    | true =>
    simp only [Bool.not_true, Bool.false_eq_true, if_false] at h
    have hv : v < W.vars.length := by
      unfold takeUpper at h1
      rw [bind_iff] at h1
      obtain ⟨vs, W3, h3, -⟩ := h1
      exact (List.getElem?_eq_some_iff.mp (getVar_iff.mp h3).1).1
    have f1 : W1.vars.length = W.vars.length := frame_len ((show Fr (takeUpper cc v o) by unfold takeUpper; fr_auto).fr _ _ _ h1)
    have f2 : W2.vars.length = W1.vars.length := frame_len ((show Fr (takeLower cc v o) by unfold takeLower; fr_auto).fr _ _ _ h2)
    rcases takeBounds_len h with rfl | hq
    · simp; omega
    · simp only [List.length_cons]; omega

end Clingcon
