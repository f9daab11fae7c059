import Verif.Props.FirstKept
import Verif.Props.Optimize

/-! Property C80: optimization in the first solve step, from the program to the reported models. -/
set_option linter.unusedSimpArgs false
set_option linter.unusedVariables false
namespace Clingcon.Props
open Clingcon Clingcon.Spec

variable {T' T1 : Threads} {ienv : InitEnv} {atoms : List Op} {obj : Option (Int × CoVarVec)} {ws : List Lit} {β : Nat → Bool} {σ : Nat → Int} {W W' : World}
  {k : Nat} {m : MinCon} {S S0 : OState} {E : Nat → CC → World → List Told → Prop} {n : Int}

/-- Solving begins in the state left by `init`: no literals have been passed to threads, and no models have been reported. -/
def beginSolve (T : Threads) : OState :=
  { threads := fun t => ((T.master :: T.others)[t]?).getD T.master, told := fun _ => [Told.none], opt := { bound := T.bound }, olds := [], models := [] }

theorem begin_mem (T : Threads) (t : Nat) : (beginSolve T).threads t ∈ T.master :: T.others := by
  show ((T.master :: T.others)[t]?).getD T.master ∈ _
  cases h : (T.master :: T.others)[t]? with
  | none => exact List.mem_cons_self
  | some W => exact List.mem_of_getElem? h

/-- Constraints only come from being added. -/
theorem con_from {ops : List Op} {ts ts' : List Told} (h : Fed ops W ts W' ts') : ∀ c ∈ (konsB W'.book).1, c ∈ (konsB W.book).1 ∨ Op.addConstraint c ∈ ops := by
  induction h with
  | nil => exact fun c hc => Or.inl hc
  | @cons op ops W W1 W2 ts ts2 r hp hf hx _ ih =>
    intro c hc
    rcases ih c hc with h | h
    · by_cases ho : ∃ d, op = .addConstraint d
      · obtain ⟨d, rfl⟩ := ho
        obtain ⟨_, W3, h1, h2⟩ := SM.bind_ok hx
        obtain ⟨-, rfl⟩ := pure_iff.mp h2
        obtain ⟨v, h3⟩ := discard_iff.mp h1
        obtain ⟨b, rfl, hb⟩ := addConstraint_only h3
        rw [hb] at h
        rcases List.mem_append.mp h with h | h
        · exact Or.inl h
        · rw [List.mem_singleton.mp h]
          exact Or.inr List.mem_cons_self
      · left
        rw [← exec_cons (by cases op <;> first | trivial | exact (ho ⟨_, rfl⟩).elim) hx]
        exact h
    · exact Or.inr (List.mem_cons_of_mem _ h)

theorem atoms_built : ∀ {ops : List Op} {W : World} {ns ns' : List Nat} {W' : World}, addAtoms ops W ns = .ok (true, W', ns') → ∀ op ∈ ops, op.built = true
  | [], W, ns, ns', W', _ => fun op h => by cases h
  | op :: ops, W, ns, ns', W', hx => by
    unfold addAtoms at hx
    split at hx
    · rename_i hb
      rw [Bool.and_eq_true] at hb
      obtain ⟨p, h1, h2⟩ := res_bind hx
      obtain ⟨r, W1⟩ := p
      cases r with
      | false => injection h2 with h2; injection h2 with h2; cases h2
      | true =>
        intro o ho
        rcases List.mem_cons.mp ho with rfl | ho
        · exact hb.1
        · exact atoms_built h2 o ho
    · cases hx

/-- The calls that lead to the state in which the search starts; the objective is the only one of its kind that is added. -/
theorem first_run (hn : 1 < n) (h0 : ienv.cc.level = 0) (hs : SortOk ienv.tc) (he : EnvSound ienv.cc β) (ha : Proper β atoms)
    (hi : ∀ T1, prepareInit ienv atoms (fresh n) = .ok (true, T1) → Informed T1.master) (hx : propInit ienv atoms obj (fresh n) = .ok (true, T', ws)) (hl : T'.master.vars.length ≤ INVALID_VAR) :
    ∃ ops, OkFed β ops (World.init n) [Told.none] T'.master [Told.none] ∧ ∀ a es, Op.addConstraint (.minimize a es) ∈ ops → obj = some (a, es) := by
  obtain ⟨W0, hph⟩ := C79_phases_partial hn h0 hs he ha hi hx hl
  have ph := hph T'.master List.mem_cons_self [] T'.master [Told.none] (.nil _ _) (fun op h => by cases h)
  obtain ⟨fuel, steps, v, kept, hv, htr⟩ := ph.translate
  obtain ⟨k1, -, -⟩ := C74_calls hs (fed_reach hn (ok_fed ph.setup)) ph.ready hv htr
  obtain ⟨ops, k2, k3⟩ := k1 [Told.none]
  refine ⟨_, okFed_trans ph.setup (trans_ok he k2 k3), fun a es hm => ?_⟩
  rcases List.mem_append.mp hm with hm | hm
  · unfold firstCalls at hm
    rcases List.mem_append.mp hm with hm | hm
    · unfold propInit at hx
      obtain ⟨p, a1, hx⟩ := res_bind hx
      obtain ⟨r, T1⟩ := p
      cases r with
      | false => injection hx with hx; injection hx with hx; cases hx
      | true =>
      unfold prepareInit at a1
      obtain ⟨Ta, b1, a1⟩ := res_bind a1
      obtain ⟨Tb, b2, a1⟩ := res_bind a1
      obtain ⟨p, b3, a1⟩ := res_bind a1
      obtain ⟨r, W1, ns⟩ := p
      cases r with
      | false => injection a1 with a1; injection a1 with a1; cases a1
      | true =>
      cases atoms_built b3 _ hm
    · rcases List.mem_cons.mp hm with hm | hm
      · cases hm
      · obtain ⟨p, hp, e⟩ := List.mem_map.mp hm
        injection e with e
        injection e with e1 e2
        rw [← e1, ← e2]
        exact Option.mem_toList.mp hp
  · obtain ⟨rhs, es', e⟩ := k3 _ hm
    cases e

/-- **C80** (partial as `C79_phases_partial`.) After `init` in the first solve step, if the objective is not given to the Boolean solver, solving with the shared bound starts as required by C65 in all threads, and all objectives in the solvers are the one of the program.
In particular, the costs of reported models strictly decrease. -/
theorem C80_ready_partial (hn : 1 < n) (h0 : ienv.cc.level = 0) (hs : SortOk ienv.tc) (he : EnvSound ienv.cc β) (ha : Proper β atoms)
    (hi : ∀ T1, prepareInit ienv atoms (fresh n) = .ok (true, T1) → Informed T1.master) (hx : propInit ienv atoms obj (fresh n) = .ok (true, T', ws)) (hl : T'.master.vars.length ≤ INVALID_VAR)
    (hk : T'.minimize = some k) :
    ∃ a es, obj = some (a, es) ∧ Ready n k ⟨a, es⟩ (beginSolve T') ∧
      ∀ t, ∀ c ∈ ((beginSolve T').threads t).book.cs, ∀ a' es', c.con = .minimize a' es' → a' = a ∧ es' = es := by
  obtain ⟨rest, same, -⟩ := C78_threads_partial h0 hs (C78_start hn) hi hx
  obtain ⟨a, es, e, hst, hb, -⟩ := (C78_objective_partial h0 hs (C78_start hn) hi hx).1 k hk
  obtain ⟨ops, hrun, hmin⟩ := first_run hn h0 hs he ha hi hx hl
  have all : ∀ t, (beginSolve T').threads t = T'.master := fun t => by
    rcases List.mem_cons.mp (begin_mem T' t) with h' | h'
    · exact h'
    · rw [same] at h'
      exact (List.mem_replicate.mp h').2
  refine ⟨a, es, e, ⟨hb, rfl, rfl, fun t => ?_, fun t => ?_, fun t => ?_⟩, fun t c hc a' es' hcon => ?_⟩
  · rw [all t]
    exact ⟨ops, ok_fed hrun⟩
  · rw [all t]
    exact states_get.mp hst
  · rw [all t]
    exact ia_iff.mpr rest.idle
  · rw [all t] at hc
    rcases con_from (ok_fed hrun) c.con (List.mem_map_of_mem hc) with h | h
    · cases h
    · rw [hcon] at h
      have := hmin a' es' h
      rw [e] at this
      injection this with this
      injection this with h1 h2
      exact ⟨h1.symm, h2.symm⟩

/-- **C80** (partial as `C79_kept_partial` and C65.) Let an assignment be extended to what `init` introduces such that nothing derived by threads excludes it, see `C79_kept_partial` and `C79_program_partial`. If, while optimizing with any number of threads, a clause has been posted that is
false for the assignment, for example, because the search has ended with a contradiction, then a model has been reported, and the last one is at least as good as the assignment. The truth values of literals introduced during the search may differ between threads. -/
theorem C80_optimal_partial (hn : 1 < n) (h0 : ienv.cc.level = 0) (hs : SortOk ienv.tc) {β0 : Nat → Bool} (he : EnvSound ienv.cc β0) (ha : Proper β0 atoms)
    (hi : ∀ T1, prepareInit ienv atoms (fresh n) = .ok (true, T1) → Informed T1.master) {a : Int} {es : CoVarVec} (hx : propInit ienv atoms (some (a, es)) (fresh n) = .ok (true, T', ws))
    (hl : T'.master.vars.length ≤ INVALID_VAR) (hk : T'.minimize = some k)
    -- the assignment
    (hkept : ∀ S ∈ T'.master :: T'.others, KeptBy β σ S [Told.none])
    -- the search
    {β' : Nat → Nat → Bool} (hag : ∀ t, agreeBelow T'.master.nextLit β (β' t)) {σ' : Nat → Int} (hv : ∀ v < T'.master.vars.length, σ' v = σ v)
    (h : Solve k ⟨a, es⟩ (fun t cc W ts => FedAgrees cc (β' t) W ts) (beginSolve T') S) (hm : ∀ M ∈ S.models, (⟨a, es⟩ : MinCon).cost M.val ≤ NO_BOUND)
    {t : Nat} (hr : Respects (β' t) σ' (S.threads t).log) (hf : ¬ AllHold (β' t) (S.threads t).log) :
    ∃ M ms, S.models = M :: ms ∧ (⟨a, es⟩ : MinCon).cost M.val ≤ (⟨a, es⟩ : MinCon).cost σ' := by
  obtain ⟨a1, es1, e, hready, hone⟩ := C80_ready_partial hn h0 hs he ha hi hx hl hk
  injection e with e
  injection e with e1 e2
  subst e1 e2
  obtain ⟨-, same, -⟩ := C78_threads_partial h0 hs (C78_start hn) hi hx
  have all : (beginSolve T').threads t = T'.master := by
    rcases List.mem_cons.mp (begin_mem T' t) with h' | h'
    · exact h'
    · rw [same] at h'
      exact (List.mem_replicate.mp h').2
  obtain ⟨M, hM, hle⟩ : ∃ M ∈ S.models, (⟨a, es⟩ : MinCon).cost M.val ≤ (⟨a, es⟩ : MinCon).cost σ' := by
    by_contra hcon
    obtain ⟨ops, hadm⟩ := solve_adm (σ := σ') hn hready hone h (fun M hM => by by_contra hq; exact hcon ⟨M, hM, by omega⟩) t
    rw [all] at hadm
    exact hf (hkept T'.master List.mem_cons_self (β' t) σ' ops (S.threads t) (S.told t) (hag t) hv hadm hr).1
  obtain ⟨h1, h2⟩ := C65_decrease hn hready h hm
  rcases h2 with ⟨e, -⟩ | ⟨M0, ms, e, -, -⟩
  · rw [e] at hM; cases hM
  · refine ⟨M0, ms, e, ?_⟩
    rw [e] at h1 hM
    rcases List.mem_cons.mp hM with rfl | hM
    · exact hle
    · exact le_trans (le_of_lt ((List.pairwise_cons.mp h1).1 M hM)) hle

/-- A check is a sequence of calls that add nothing. -/
theorem steps_ok {cc : CC} {b : Int} {ck cs r : Bool} {fuel : Nat} {W0 W1 : World} {ts : List Told} (h : CheckSteps cc k m b ck cs fuel W W0 W1 W' r) (hg : GI W ts) (hl : W.level ≤ cc.level)
    (he : EnvSound cc β) : ∃ ops1 ops2, OkFed β ops1 W ts W1 ts ∧ OkFed β ops2 W1 ts W' ts ∧ NoRemoval ops1 ∧ NoRemoval ops2 := by
  have one : ∀ {op : Op} {r : Bool} {V V' : World}, op.pre V → feedPre ts V op → (∀ cc', opEnv op = some cc' → EnvSound cc' β) → okOp r op → op.exec V = .ok (r, V') →
      (∀ cc ls, op ≠ .propagate cc ls) → op ≠ .undo → OkFed β [op] V ts V' ts := by
    intro op r V V' g1 g2 g3 g4 g5 g6 g7
    have := OkFed.cons g1 g2 g3 g4 g5 (.nil _ _)
    rwa [told_other g6 g7] at this
  have h0 : ∃ ops0, OkFed β ops0 W ts W0 ts ∧ W0.level = W.level ∧ NoRemoval ops0 := by
    rcases h.bound with ⟨-, rfl⟩ | ⟨-, rfl⟩
    · exact ⟨[], .nil _ _, rfl, fun op h => by cases h⟩
    · exact ⟨[.updateMinimize k cc.level (b + m.adjust)], one (r := true) trivial trivial (fun _ h => by cases h) trivial rfl (fun _ _ => by simp) (by simp), level_congr updateMinimize_levels,
        fun op h => by rw [List.mem_singleton.mp h]; exact ⟨fun _ => by simp, fun _ => by simp⟩⟩
  obtain ⟨ops0, f0, e0, n0⟩ := h0
  have g0 := gi_fed (ok_fed f0) hg
  have f1 : OkFed β [.check cc ck fuel] W0 ts W1 ts :=
    one trivial (show _ ≤ _ by omega) (fun _ h => by cases h; exact he) trivial h.check (fun _ _ => by simp) (by simp)
  have n1 : NoRemoval (ops0 ++ [.check cc ck fuel]) := fun op ho => by
    rcases List.mem_append.mp ho with ho | ho
    · exact n0 op ho
    · rw [List.mem_singleton.mp ho]; exact ⟨fun _ => by simp, fun _ => by simp⟩
  rcases h.full with rfl | h2
  · exact ⟨_, [], okFed_trans f0 f1, .nil _ _, n1, fun op h => by cases h⟩
  · refine ⟨_, [.checkFull cc cs], okFed_trans f0 f1, ?_, n1, fun op h => by rw [List.mem_singleton.mp h]; exact ⟨fun _ => by simp, fun _ => by simp⟩⟩
    have hx : (Op.checkFull cc cs).exec W1 = .ok (true, W') := by
      show (do solverCheckFull cc cs; return true : SM Bool) W1 = _
      rw [bind_iff]
      exact ⟨(), W', h2, rfl⟩
    exact one trivial (show _ ≤ _ by rw [level_congr (check_levels g0 h.check)]; omega) (fun _ h => by cases h; exact he) trivial hx (fun _ _ => by simp) (by simp)

/-- Solving is a sequence of calls that add nothing in each thread. -/
theorem solve_ok (hn : 1 < n) (hr : Ready n k m S0) (hE : ∀ t cc W ts, E t cc W ts → EnvSound cc β) (h : Solve k m E S0 S) :
    ∀ t, ∃ ops, OkFed β ops (S0.threads t) (S0.told t) (S.threads t) (S.told t) ∧ NoRemoval ops := by
  have app : ∀ {ops ops' : List Op}, NoRemoval ops → NoRemoval ops' → NoRemoval (ops ++ ops') := fun h1 h2 op ho => by
    rcases List.mem_append.mp ho with ho | ho
    · exact h1 op ho
    · exact h2 op ho
  induction h with
  | start => exact fun t => ⟨[], .nil _ _, fun op h => by cases h⟩
  | @call S t op r W' hS hop hp hf he hx ih =>
    intro u
    by_cases hu : u = t
    · subst hu
      obtain ⟨ops, hq, hq'⟩ := ih u
      simp only [OState.set, Function.update_self]
      refine ⟨_, okFed_trans hq (.cons hp hf (fun cc e => hE _ _ _ _ (he cc e)) ?_ hx (.nil _ _)), app hq' fun o ho => ?_⟩
      · cases op <;> trivial
      · rw [List.mem_singleton.mp ho]
        exact ⟨(by rintro n rfl; exact hop), (by rintro n rfl; exact hop)⟩
    · simp only [OState.set, Function.update_of_ne hu]
      exact ih u
  | @check S t cc total b ck cs fuel W' hS hb hl he hx ih =>
    intro u
    by_cases hu : u = t
    · subst hu
      obtain ⟨W0, W1, r, st⟩ := propCheck_steps hx
      obtain ⟨ops, hq, hq'⟩ := ih u
      obtain ⟨o1, o2, g1, g2, g3, g4⟩ := steps_ok st (gi_fed ((optInv hn hr hS).reach u).choose_spec (gi_init hn)) hl (hE _ _ _ _ he)
      simp only [OState.set, Function.update_self]
      exact ⟨_, okFed_trans hq (okFed_trans g1 g2), app hq' (app g3 g4)⟩
    · simp only [OState.set, Function.update_of_ne hu]
      exact ih u
  | @model S t cc total ck fuel W1 W' β' c hS hl hfm he h1 ht hx hnl hlog htt hag hp hrg hcost ih =>
    intro u
    by_cases hu : u = t
    · subst hu
      obtain ⟨W0, W2, r, st⟩ := propCheck_steps hx
      obtain ⟨ops, hq, hq'⟩ := ih u
      obtain ⟨o1, o2, g1, g2, g3, g4⟩ := steps_ok st (gi_fed ((optInv hn hr hS).reach u).choose_spec (gi_init hn)) hl (hE _ _ _ _ he)
      simp only [OState.set, Function.update_self]
      exact ⟨_, okFed_trans hq (okFed_trans g1 g2), app hq' (app g3 g4)⟩
    · simp only [OState.set, Function.update_of_ne hu]
      exact ih u

/-- Nothing is pending after the check of a total assignment. -/
theorem bound_integrated {cc : CC} {b : Int} {ck : Bool} {fuel : Nat} {W1 : World} (hfm : cc.level = W.level ∨ W.factmap = [])
    (h1 : boundAndCheck cc (some (k, m)) b ck fuel W = .ok (true, W1)) : W1.factmap = [] := by
  obtain ⟨W0, hs⟩ := boundAndCheck_steps (cs := true) h1
  have e0 : W0.level = W.level := by
    rcases hs.bound with ⟨-, rfl⟩ | ⟨-, rfl⟩
    · rfl
    · exact level_congr updateMinimize_levels
  have efm : W0.factmap = W.factmap := by rcases hs.bound with ⟨-, rfl⟩ | ⟨-, rfl⟩ <;> rfl
  by_cases hc : cc.level = W0.level ∨ W0.level < W0.book.minimizeLevel
  · exact C50_integrated hc hs.check
  · have hx := hs.check
    unfold solverCheck at hx
    rw [bind_iff] at hx
    obtain ⟨l, X, g1, hx⟩ := hx
    obtain ⟨e, rfl⟩ := curLevel_level g1
    rw [bind_iff] at hx
    obtain ⟨Y, Z, g2, hx⟩ := hx
    obtain ⟨rfl, rfl⟩ := get_iff.mp g2
    rw [e, if_pos (by omega)] at hx
    obtain ⟨-, rfl⟩ := pure_iff.mp hx
    rw [efm]
    rcases hfm with hq | hq
    · exact absurd (Or.inl (by omega)) hc
    · exact hq

section
variable (pow : Int → Int → Res Int) (hpow : ∀ x y z, pow x y = .ok z → -2 ^ 31 ≤ z ∧ z ≤ 2 ^ 31 - 1)
variable (env : BEnv) (penv : PEnv) (Base : (Nat → Bool) → Prop) (as : List TheoryAtom) (s s' : BState) (p p' : PState) (evs : List Event) (bb bb' : Bool)

include hpow in
/-- **C80** (partial as `C79_answers_partial`.) Models reported while optimizing are answers of the program. Let the theory atoms of a program be passed on to the solver by `init`, and let any number of threads optimize with a shared bound. If a thread
reports a model, see `Spec.Solve`, whose truth assignment satisfies what this thread has posted, then every theory atom of the program has its meaning for the reported values. -/
theorem C80_answers_partial {new : List PEv} (hld : Loaded pow env penv as s s' p p' evs bb bb' new) {cc : CC} {W1 : World}
    (ho : Oracle env (values W') s.log s.nextLit Base) (hp : POracle penv (values W') p.log s.nextLit Base) (hb : Base β)
    -- everything is passed on
    (hpass : ∀ e ∈ new, passedOn atoms e) (hcl : ∀ c, PEv.clause c ∈ new → ∃ l ∈ c, litTrue β l)
    -- the solvers are prepared
    (h0 : ienv.cc.level = 0) (hs : SortOk ienv.tc) (he : EnvSound ienv.cc β) (ha : Proper β atoms)
    (hi : ∀ T1, prepareInit ienv atoms (fresh p'.nextLit) = .ok (true, T1) → Informed T1.master) {a : Int} {es : CoVarVec}
    (hx : propInit ienv atoms (some (a, es)) (fresh p'.nextLit) = .ok (true, T', ws)) (hl : T'.master.vars.length ≤ INVALID_VAR) (hk : T'.minimize = some k)
    -- the search
    (hE : ∀ t cc W ts, E t cc W ts → EnvSound cc β) (h : Solve k ⟨a, es⟩ E (beginSolve T') S)
    -- a thread reports a model
    {t : Nat} {total : List SEv → Bool} {ck : Bool} {fuel : Nat} (hlv : (S.threads t).level ≤ cc.level) (hfm : cc.level = (S.threads t).level ∨ (S.threads t).factmap = [])
    (hcc : E t cc (S.threads t) (S.told t)) (h1 : boundAndCheck cc (some (k, ⟨a, es⟩)) S.opt.bound ck fuel (S.threads t) = .ok (true, W1)) (ht : total W1.log = true)
    (hcheck : propCheck cc total (some (k, ⟨a, es⟩)) S.opt.bound ck true fuel (S.threads t) = .ok ((), W')) (hnl : W1.nextLit = (S.threads t).nextLit) (hlog : W'.log = W1.log)
    (hag : ∀ c ∈ W1.book.cs, litTrue β c.con.lit → cc.isTrue W1.log c.con.lit = true) (hps : PassedAll β W1 (S.told t)) (hrg : ranged W1) (hal : AllHold β W1.log)
    {τ : Sym → Int} (hτ : ∀ q ∈ s'.symMap, W'.getValue q.2 = some (τ q.1)) :
    (∀ x ∈ as, atomHolds pow τ β (env.solverLit x.lit) x) ∧ (S.opt.bound ≠ NO_BOUND → (⟨a, es⟩ : MinCon).cost (values W') ≤ S.opt.bound) := by
  have hn : 1 < p'.nextLit := by
    obtain ⟨-, hcap⟩ := Loaded.captures pow hpow env penv Base as s s' p p' evs bb bb' hld (σ := τ) ho hp (by
      intro q hq
      have := hτ q hq
      show values W' q.2 = _
      unfold values
      rw [this]; rfl)
    exact lt_of_lt_of_le ho.pos hcap.mono
  obtain ⟨a1, es1, e, hready, hone⟩ := C80_ready_partial hn h0 hs he ha hi hx hl hk
  injection e with e
  injection e with e1 e2
  subst e1 e2
  have inv := optInv hn hready h
  obtain ⟨rops, hro⟩ := inv.reach t
  have hg := gi_fed hro (gi_init hn)
  obtain ⟨ops, hq, hq'⟩ := solve_ok hn hready hE h t
  obtain ⟨W0, hst⟩ := boundAndCheck_steps (cs := true) h1
  obtain ⟨o1, o2, g1, -, g3, -⟩ := steps_ok hst hg hlv (hE _ _ _ _ hcc)
  have hfull := propCheck_full h1 ht hnl hcheck
  obtain ⟨rfl, -, hbd, -⟩ := accepted_bound hn hro hlv hfm (inv.objective hready t) (inv.same t).ia h1 ht hcheck hnl hlog he.tt hag hps hrg
  refine ⟨?_, hbd⟩
  obtain ⟨t0, ts0, ets, hpassed⟩ := hps
  have hall := okFed_trans hq g1
  rw [show (beginSolve T').told t = [Told.none] from rfl, ets] at hall
  rw [values_lower] at ho hp
  exact C79_answers_partial pow hpow env penv Base as s s' p p' evs bb bb' hld ho hp hb hpass hcl h0 hs he ha hi hx hl (begin_mem T' t) hall
    (fun op ho => by
      rcases List.mem_append.mp ho with ho | ho
      · exact hq' op ho
      · exact g3 op ho)
    (bound_integrated hfm h1) hpassed hal (inRange_of hrg) (fun c hc _ hlit => hag c hc hlit) hfull hlog hτ

end

/-! ### A concrete case -/

/-- The program of the example for C79 with the objective `y`, which is not translated. -/
def optEnv : InitEnv := { firstEnv with tc := { toWeights with translateMinimize := 0 } }
def firstM : Threads := initResult optEnv firstAtoms firstObj (fresh 4)
def firstMin : MinCon := ⟨0, [(1, 1)]⟩

/-- The first thread checks on the top level, and reports a model with `y = 1`. Then, it backtracks and finds that there is no better model. -/
def minCheck (cc : CC) (b : Int) : SM Unit := propCheck cc (fun _ => true) (some (1, firstMin)) b false true 9
def topCheck : SM Unit := propCheck idle (fun _ => false) (some (1, firstMin)) NO_BOUND false true 9
def foA := ran topCheck firstM.master
def fo1 := after (.propagate okAll [2, 4, -5]) foA
def fo2 := ran (minCheck okAll NO_BOUND) fo1
def fo3 := after .undo fo2
def fo4 := ran (minCheck idle 0) fo3
def fo2' := ran (boundAndCheck okAll (some (1, firstMin)) NO_BOUND false 9) fo1

def foS0 : OState := beginSolve firstM
def foSA : OState := foS0.set 0 foA [Told.none]
def foS1 : OState := foSA.set 0 fo1 [okTold, Told.none]
def foS2 : OState := { foS1.set 0 fo2 [okTold, Told.none] with opt := ⟨0, some 1⟩, olds := [NO_BOUND], models := [⟨0, okβ, values fo2⟩] }
def foS3 : OState := foS2.set 0 fo3 [Told.none]
def foS4 : OState := foS3.set 0 fo4 [Told.none]

theorem begin_at (T : Threads) : (beginSolve T).threads 0 = T.master ∧ (beginSolve T).told 0 = [Told.none] := ⟨rfl, rfl⟩

theorem fo_at0 : foS0.threads 0 = firstM.master ∧ foS0.told 0 = [Told.none] := by
  unfold foS0
  exact begin_at firstM

theorem fo_atA : foSA.threads 0 = foA ∧ foSA.told 0 = [Told.none] := by
  unfold foSA
  exact thread_set _ _ _ _

theorem fo_at1 : foS1.threads 0 = fo1 ∧ foS1.told 0 = [okTold, Told.none] := by
  unfold foS1
  exact thread_set _ _ _ _

theorem fo_at2 : foS2.threads 0 = fo2 ∧ foS2.told 0 = [okTold, Told.none] := by
  unfold foS2
  rw [(thread_with _ _ _ _).1, (thread_with _ _ _ _).2]
  exact thread_set _ _ _ _

theorem fo_at3 : foS3.threads 0 = fo3 ∧ foS3.told 0 = [Told.none] := by
  unfold foS3
  exact thread_set _ _ _ _

theorem fo_at4 : foS4.threads 0 = fo4 ∧ foS4.told 0 = [Told.none] := by
  unfold foS4
  exact thread_set _ _ _ _

theorem fo_opt1 : foS1.opt = {} ∧ foS1.olds = [] ∧ foS1.models = [] := by
  have hb : firstM.bound = NO_BOUND := by decide +kernel
  unfold foS1 foSA foS0 OState.set beginSolve
  simp only [hb]
  exact ⟨trivial, trivial, trivial⟩

theorem fo_opt0 : NO_BOUND ∈ foS0.opt.bound :: foS0.olds := by
  have hb : firstM.bound = NO_BOUND := by decide +kernel
  unfold foS0 beginSolve
  simp only [hb]
  exact List.mem_cons_self

theorem fo_told {W : World} (h : [2, 4, -5].all (fun l => okAll.isTrue W.log l) = true) (t : Told) (ht : [okTold, Told.none].head? = some t) (l : Int) (hl : t.tried l) :
    okAll.isTrue W.log l = true := by
  injection ht with ht
  subst ht
  rcases hl with hl | hl
  · exact hl.elim
  · exact List.all_eq_true.mp h l hl

theorem okAll_sound : EnvSound okAll okβ := assigns_sound (by decide) (by decide)
theorem okAll_mono : EnvMono okAll := fun _ _ _ _ h => h

theorem fo_passed : PassedAll okβ fo2' [okTold, Told.none] := by
  have hv : fo2'.vars.map (·.with) = [[(0, 2)], [(0, -4), (1, -5)]] := by decide +kernel
  refine ⟨_, _, rfl, ?_⟩
  rintro v k l ⟨vs, h1, h2⟩
  have : vs.with ∈ fo2'.vars.map (·.with) := List.mem_map_of_mem (List.mem_of_getElem? h1)
  rw [hv] at this
  simp only [List.mem_cons, List.not_mem_nil, or_false] at this
  rcases this with this | this
  all_goals
    rw [this] at h2
    simp only [List.mem_cons, Prod.mk.injEq, List.not_mem_nil, or_false] at h2
  · obtain ⟨rfl, rfl⟩ := h2
    exact ⟨fun _ => Or.inr ⟨rfl, by simp⟩, fun h => by simp [litTrue, okβ] at h⟩
  · rcases h2 with ⟨rfl, rfl⟩ | ⟨rfl, rfl⟩
    · exact ⟨fun h => by simp [litTrue, okβ] at h, fun _ => Or.inr ⟨rfl, by simp⟩⟩
    · exact ⟨fun _ => Or.inr ⟨rfl, by simp⟩, fun h => by simp [litTrue, okβ] at h⟩

theorem fo_cons : ∀ c ∈ fo2'.book.cs, litTrue okβ c.con.lit → okAll.isTrue fo2'.log c.con.lit = true := by
  have : fo2'.book.cs.all (fun c => okAll.isTrue fo2'.log c.con.lit) = true := by decide +kernel
  exact fun c hc _ => List.all_eq_true.mp this c hc

theorem fo_top : Solve 1 firstMin (fun _ cc W ts => FedAgrees cc okβ W ts) foS0 foSA :=
  step_check (W := firstM.master) (ts := [Told.none]) (t := 0) (cc := idle) (total := fun _ => false) (b := NO_BOUND) (ck := false) (cs := true) (fuel := 9) (W' := foA)
    .start fo_at0.1 fo_at0.2 fo_opt0 (by decide +kernel) (ans_agree (idle_sound (by decide)) idle_mono (by decide +kernel) ans_none)
    (ran_eq (x := topCheck) (by decide +kernel))

theorem fo_first : Solve 1 firstMin (fun _ cc W ts => FedAgrees cc okβ W ts) foS0 foS1 := by
  refine step_call (W := foA) (ts := [Told.none]) (t := 0) (op := .propagate okAll [2, 4, -5]) (r := true) (W' := fo1) fo_top fo_atA.1 fo_atA.2 trivial
    (Op.preB_iff.mp (by decide +kernel)) (by show _ ≤ _ ∧ _; decide +kernel) (fun cc h => by cases h; exact ans_agree okAll_sound okAll_mono (by decide +kernel) ans_none)
    (after_eq (by decide +kernel)) ?_
  have : foA.book.levels.length < fo1.book.levels.length := by decide +kernel
  simp only [toldAfter, if_pos this, okTold]

theorem fo_agree : FedAgrees okAll okβ fo1 [okTold, Told.none] := ans_agree okAll_sound okAll_mono (by decide +kernel) (fo_told (by decide +kernel))
theorem fo_level : fo1.level ≤ okAll.level := by decide +kernel
theorem fo_same : okAll.level = fo1.level := by decide +kernel
theorem fo_bound : boundAndCheck okAll (some (1, firstMin)) NO_BOUND false 9 fo1 = .ok (true, fo2') := ran_eq (by decide +kernel)
theorem fo_check : propCheck okAll (fun _ => true) (some (1, firstMin)) NO_BOUND false true 9 fo1 = .ok ((), fo2) := ran_eq (x := minCheck okAll NO_BOUND) (by decide +kernel)
theorem fo_next : fo2'.nextLit = fo1.nextLit := by decide +kernel
theorem fo_log : fo2.log = fo2'.log := by decide +kernel
theorem fo_range : ranged fo2' := opt_range (by decide +kernel)

theorem fo_solve : Solve 1 firstMin (fun _ cc W ts => FedAgrees cc okβ W ts) foS0 foS4 := by
  have s2 : Solve 1 firstMin (fun _ cc W ts => FedAgrees cc okβ W ts) foS0 foS2 := by
    refine step_model (W := fo1) (ts := [okTold, Told.none]) (b := NO_BOUND) (bs := []) (ms := []) (o := ⟨0, some 1⟩) (t := 0) (cc := okAll) (total := fun _ => true)
      (ck := false) (fuel := 9) (W1 := fo2') (W' := fo2) (β := okβ) (c := 1) fo_first fo_at1.1 fo_at1.2 (by rw [fo_opt1.1]) fo_opt1.2.1 fo_opt1.2.2 ?_ fo_level (Or.inl fo_same) fo_agree
      fo_bound rfl fo_check fo_next fo_log (by show okβ 1 = true; decide) fo_cons fo_passed fo_range (by decide +kernel)
    rw [fo_opt1.1]
    unfold OptState.onModel
    rw [if_pos (by decide)]
    rfl
  have s3 : Solve 1 firstMin (fun _ cc W ts => FedAgrees cc okβ W ts) foS0 foS3 :=
    step_call (W := fo2) (ts := [okTold, Told.none]) (t := 0) (op := .undo) (r := true) (W' := fo3) s2 fo_at2.1 fo_at2.2 trivial trivial trivial (fun cc h => by cases h)
      (after_eq (by decide +kernel)) rfl
  exact step_check (W := fo3) (ts := [Told.none]) (t := 0) (cc := idle) (total := fun _ => true) (b := 0) (ck := false) (cs := true) (fuel := 9) (W' := fo4)
    s3 fo_at3.1 fo_at3.2 (by show _ ∈ [0, NO_BOUND]; simp) (by decide +kernel) (ans_agree (idle_sound (by decide)) idle_mono (by decide +kernel) ans_none)
    (ran_eq (x := minCheck idle 0) (by decide +kernel))

theorem fo_models : foS4.models = [⟨0, okβ, values fo2⟩] := by
  unfold foS4 foS3 foS2 OState.set
  exact rfl

theorem fo_cost {v : Nat → Int} (h : firstMin.cost v = 1) (M : Report) (hM : M ∈ [(⟨0, okβ, v⟩ : Report)]) : firstMin.cost M.val ≤ NO_BOUND := by
  rw [List.mem_singleton.mp hM]
  exact le_of_eq_of_le h (by decide)

theorem fo_stop : ¬ AllHold okβ fo4.log := by
  intro h
  have hm : SEv.volatile [-4] ∈ fo4.log := by decide +kernel
  obtain ⟨l, hl, ht⟩ := h _ hm
  rw [List.mem_singleton] at hl
  subst hl
  simp [litTrue, okβ] at ht

def optP : Threads := match prepareInit optEnv firstAtoms (fresh 4) with | .ok (_, T) => T | _ => fresh 4

theorem optEnv_prepared : prepareInit optEnv firstAtoms (fresh 4) = .ok (true, optP) := by
  have h : (match prepareInit optEnv firstAtoms (fresh 4) with | .ok (b, _) => b | _ => false) = true := by decide +kernel
  unfold optP
  generalize prepareInit optEnv firstAtoms (fresh 4) = x at h ⊢
  cases x with
  | error e => cases h
  | ok p => obtain ⟨b, T⟩ := p; cases h; rfl

theorem optEnv_informed : ∀ T1, prepareInit optEnv firstAtoms (fresh 4) = .ok (true, T1) → Informed T1.master := by
  intro T1 h
  rw [optEnv_prepared] at h
  injection h with h
  injection h with _ h
  rw [← h]
  exact informedB_ok (by decide +kernel)

theorem fo_init : ∃ ws, propInit optEnv firstAtoms firstObj (fresh 4) = .ok (true, firstM, ws) := by
  obtain ⟨ws, hx⟩ := initResult_ok (env := optEnv) (atoms := firstAtoms) (new := firstObj) (T0 := fresh 4) (by decide +kernel)
  exact ⟨ws, hx⟩

/-- The hypotheses of `C80_answers_partial` are met. -/
example : ∀ a ∈ ansProgram, atomHolds noPow ansSyms okβ (exEnv.solverLit a.lit) a := by
  obtain ⟨ws, hx⟩ := fo_init
  refine (C80_answers_partial noPow (by intro x y z h; cases h) exEnv plainEnv (fun β => β 1 = true) ansProgram ansStart ansEnd ⟨4, []⟩ ⟨4, ansPosts⟩ ansEvs true true ans_loaded
    (W' := fo2) (W1 := fo2') (cc := okAll) (S := foS1) (t := 0) (total := fun _ => true) (ck := false) (fuel := 9) (E := fun _ cc W ts => FedAgrees cc okβ W ts)
    (ans_oracle _) (ans_poracle _) (by decide) ?_ ?_ rfl (fun l => List.Perm.refl l) (idle_sound (by decide)) first_proper optEnv_informed hx (by decide +kernel) (by decide +kernel)
    (fun _ _ _ _ h => h.sound) fo_first (by rw [fo_at1.1]; exact fo_level) (by rw [fo_at1.1]; exact Or.inl fo_same) (by rw [fo_at1.1, fo_at1.2]; exact fo_agree)
    (by rw [fo_at1.1, fo_opt1.1]; exact fo_bound) rfl (by rw [fo_at1.1, fo_opt1.1]; exact fo_check) (by rw [fo_at1.1]; exact fo_next) fo_log fo_cons (by rw [fo_at1.2]; exact fo_passed)
    fo_range (allHold_of (by decide +kernel)) ?_).1
  · intro e he
    simp only [ansPosts, List.mem_cons, List.not_mem_nil, or_false] at he
    rcases he with rfl | rfl | rfl | rfl
    · exact ⟨idle, by simp [firstAtoms]⟩
    · exact ⟨idle, by simp [firstAtoms]⟩
    · exact ⟨idle, by simp [firstAtoms]⟩
    · show Op.addConstraint _ ∈ firstAtoms
      simp [firstAtoms]
  · intro c hc
    simp [ansPosts] at hc
  · intro q hq
    simp only [ansEnd, List.mem_cons, List.not_mem_nil, or_false] at hq
    rcases hq with rfl | rfl <;> decide +kernel

/-- The hypotheses of `C80_ready_partial` and `C80_optimal_partial` are met: the model with `y = 1` is optimal among the ones that make the literals of the program true. -/
example : ∃ M ms, foS4.models = M :: ms ∧ firstMin.cost M.val ≤ firstMin.cost ansVals := by
  obtain ⟨ws, hx⟩ := fo_init
  have hag : Agree ansSyms ansVals ansEnd := by
    intro q hq
    simp only [ansEnd, List.mem_cons, List.not_mem_nil, or_false] at hq
    rcases hq with rfl | rfl <;> decide
  obtain ⟨hpr, -⟩ := Loaded.captures noPow (by intro x y z h; cases h) exEnv plainEnv (fun β => β 1 = true) ansProgram ansStart ansEnd ⟨4, []⟩ ⟨4, ansPosts⟩ ansEvs true true ans_loaded
      (σ := ansSyms) (τ := ansVals) (ans_oracle _) (ans_poracle _) hag
  have hh : ∀ e ∈ ansPosts, pholds okβ ansVals e := by
    intro e he
    simp only [ansPosts, List.mem_cons, List.not_mem_nil, or_false] at he
    rcases he with rfl | rfl | rfl | rfl
    · show (_ ↔ _)
      simp [litTrue, okβ, ansVals]
    · exact fun _ => ⟨(1, 2), by simp, by decide, by decide⟩
    · exact fun _ => by decide
    · exact fun _ => by show wsum _ _ ≤ _; decide
  have hen : optP.master.nextLit = 6 := by decide +kernel
  have hlen : optP.master.vars.length = 2 := by decide +kernel
  have hen' : firstM.master.nextLit = 6 := by decide +kernel
  have hlen' : firstM.master.vars.length = 2 := by decide +kernel
  have hl : firstM.master.vars.length ≤ INVALID_VAR := by rw [hlen']; decide
  obtain ⟨β', σ', a1, a2, a3⟩ := C79_kept_partial (ienv := optEnv) (by decide) rfl (fun l => List.Perm.refl l) (postFed_admFed hpr hh first_post)
    (ans_agree (idle_sound (by decide)) idle_mono (by decide +kernel) ans_none) (by intro log l hl; cases hl) (by intro a es e; injection e with e; injection e with _ e; rw [← e]; decide)
    optEnv_prepared (informedB_ok (by decide +kernel)) (formOk_of (by decide +kernel) (by decide +kernel) (by decide +kernel) (by decide +kernel) (by decide +kernel)) (respects_of (by decide +kernel))
    (fun β' hb => idle_sound (by rw [← hb 1 (by rw [hen]; decide)]; decide)) hx hl
  rw [hen] at a1
  rw [hlen] at a2
  refine C80_optimal_partial (β' := fun _ => okβ) (σ' := ansVals) (t := 0) (by decide) rfl (fun l => List.Perm.refl l) (idle_sound (β := okβ) (by decide)) first_proper optEnv_informed hx hl (by decide +kernel) a3 ?_ ?_
    fo_solve ?_ (by rw [fo_at4.1]; exact respects_of (by decide +kernel)) (by rw [fo_at4.1]; exact fo_stop)
  · rw [hen']
    exact fun _ v hv => (a1 v hv).symm
  · rw [hlen']
    exact fun v hv => (a2 v hv).symm
  · rw [fo_models]
    exact fo_cost (by decide +kernel)

end Clingcon.Props
