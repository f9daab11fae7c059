import Verif.Proof.RunSound
import Verif.Props.Distinct
import Verif.Props.Sum

/-! Everything derived over sequences of calls is sound: C17 and C57. -/
set_option linter.unusedSimpArgs false
namespace Clingcon.Props
open Clingcon Clingcon.Spec

variable {cc : CC} {β : Nat → Bool} {σ : Nat → Int} {W W' : World} {n : Int} {ops : List Op}

/-- **C57** (partial: see `Spec.admits` and `Spec.EnvAgrees` for the cases that are left out because the code is wrong for them; that bounds are
justified by literals is assumed here if there are disjoint constraints and proved in `C57_fed_partial`.) Let an assignment be given that is not excluded by the
constraints, domains and objective bounds that are added. Then nothing that is derived over any sequence of calls, with any
interleaving of decisions, propagation, and undoing, excludes it: all clauses posted hold, facts that are pending hold, and bounds on
the top level admit it. -/
theorem C57_run_sound_partial (hn : 1 < n) (h : AdmRun β σ ops (World.init n) W) (hr : Respects β σ W.log) :
    AllHold β W.log ∧ Good β σ W := by
  have hi := (admRun_sound h ⟨n, [], hn, .nil _⟩ (init_inv hn) (by intro c hc; cases hc) hr).1
  exact ⟨hi.good.posted, hi.good⟩

/-- **C57** In particular, no empty clause is posted, and on the top level, the values are within the current bounds. -/
theorem C57_top_partial (hn : 1 < n) (h : AdmRun β σ ops (World.init n) W) (hr : Respects β σ W.log) :
    SEv.clause [] ∉ W.log ∧ (W.book.levels.length = 1 → ∀ v, v < W.vars.length → lowerOf W v ≤ σ v ∧ σ v ≤ upperOf W v) := by
  obtain ⟨h1, h2⟩ := C57_run_sound_partial hn h hr
  refine ⟨fun hm => ?_, fun hl v hv => ?_⟩
  · obtain ⟨l, hl, -⟩ := h1 _ hm
    cases hl
  · have hb := (run_wi (admRun_run h) (init_wi n)).b0 hl
    obtain ⟨vs, hvs⟩ : ∃ vs, W.vars[v]? = some vs := ⟨_, List.getElem?_eq_getElem hv⟩
    have h3 := h2.bound v vs hvs
    have e1 : vs.lowerStack = [] := by
      have := hb.stL v
      simp only [lstF, frame, List.getElem?_map, hvs] at this
      simpa [VarState.bounds] using this
    have e2 : vs.upperStack = [] := by
      have := hb.stU v
      simp only [ustF, frame, List.getElem?_map, hvs] at this
      simpa [VarState.bounds, negStk] using this
    unfold VarState.minBound VarState.maxBound at h3
    rw [e1, e2] at h3
    unfold lowerOf upperOf boundsOf
    rw [List.getElem?_map, hvs]
    exact h3

/-- **C17** Propagating literals (on any level, for any state that is faithful to the assignment) only adds clauses that hold when each
order literal is read as "variable ≤ value", and the state is faithful to the assignment afterwards. -/
theorem C17_propagate {ls : List Int} {r : Bool} (he : EnvSound cc β) (hl : ∀ l ∈ ls, l ≠ 0) (hi : Inv β σ W)
    (h : solverPropagate cc ls W = .ok (r, W')) (hr : Respects β σ W'.log) : AllHold β W'.log ∧ Inv β σ W' := by
  have := (tr_solverPropagate he hl W r W' h).2 hi ⟨hr, fun h => by cases h⟩
  exact ⟨this.good.posted, this⟩

/-- Only `addConstraint` adds constraints. -/
theorem exec_cons {op : Op} {r : Bool} (ho : noConstraint op) (h : op.exec W = .ok (r, W')) : (konsB W'.book).1 = (konsB W.book).1 := by
  have kp : ∀ {α : Type} {x : SM α} {a : α} {W' : World}, (∀ K, Keep (Kons K) x) → x W = .ok (a, W') → (konsB W'.book).1 = (konsB W.book).1 := by
    intro α x a W' hk hx
    have : konsB W'.book = konsB W.book := (hk (konsB W.book)).keep _ _ _ hx rfl
    rw [this]
  cases op with
  | addConstraint c => exact ho.elim
  | addVar lo hi' =>
    obtain ⟨_, W1, h1, h2⟩ := SM.bind_ok h
    obtain ⟨-, rfl⟩ := pure_iff.mp h2
    obtain ⟨v, h3⟩ := discard_iff.mp h1
    unfold Clingcon.addVar at h3
    injection h3 with h3
    obtain ⟨rfl, rfl⟩ := Prod.mk.inj h3
    rfl
  | enable => rw [(enable_iff.mp h).2]; rfl
  | fresh => exact kp (fun K => Keep.fr fr_fresh) h
  | post e => exact kp (fun K => Keep.fr fr_post) h
  | literal cc v x => exact kp (fun K => Keep.bind (Keep.discard (Keep.fr fr_getLiteral)) (fun _ => Keep.fr Fr.pure)) h
  | updLiteral cc v x t => exact kp (fun K => Keep.bind (Keep.discard (Keep.fr fr_updateLiteral)) (fun _ => Keep.fr Fr.pure)) h
  | simple cc l co v rhs s => exact kp (fun K => Keep.fr fr_addSimple) h
  | dom cc l v d => exact kp (fun K => Keep.fr fr_addDom) h
  | removeConstraint n =>
    obtain ⟨_, W1, h1, h2⟩ := SM.bind_ok h
    obtain ⟨-, rfl⟩ := pure_iff.mp h2
    obtain ⟨b, rfl, hb⟩ := removeConstraint_only h1
    exact congrArg Prod.fst hb
  | removeConstraints rem =>
    obtain ⟨_, W1, h1, h2⟩ := SM.bind_ok h
    obtain ⟨-, rfl⟩ := pure_iff.mp h2
    obtain rfl := modify_iff.mp h1
    exact congrArg Prod.fst removeConstraints_con
  | updateMinimize n l b =>
    obtain ⟨_, W1, h1, h2⟩ := SM.bind_ok h
    obtain ⟨-, rfl⟩ := pure_iff.mp h2
    obtain rfl := modify_iff.mp h1
    rcases updateMinimize_kons (b := W.book) (n := n) (l := l) (x := b) with hk | hk
    · exact congrArg Prod.fst hk
    · exact (congrArg Prod.fst hk).trans rfl
  | propagate cc ls => exact kp (fun K => keepK_solverPropagate) h
  | check cc b n => exact kp (fun K => keepK_solverCheck) h
  | simplify cc t b n =>
    unfold Op.exec solverSimplify at h
    exact kp (fun K => keepK_factLoop) h
  | undo => exact kp (fun K => Keep.bind keepK_solverUndo (fun _ => Keep.fr Fr.pure)) h
  | decide cc l => exact kp (fun K => Keep.bind (Keep.discard (Keep.fr fr_solverDecide)) (fun _ => Keep.fr Fr.pure)) h
  | checkFull cc b => exact kp (fun K => Keep.bind keepK_solverCheckFull (fun _ => Keep.fr Fr.pure)) h
  | updateBounds cc o b n =>
    refine kp (x := Clingcon.updateBounds cc o b n) (fun K => ?_) h
    unfold Clingcon.updateBounds
    refine Keep.bind (Keep.fr fr_takeBounds) (fun b => ?_)
    split
    · exact Keep.fr Fr.pure
    · exact keepK_solverCheck
  | update n =>
    obtain ⟨_, W1, h1, h2⟩ := SM.bind_ok h
    obtain ⟨-, rfl⟩ := pure_iff.mp h2
    unfold solverUpdate at h1
    obtain ⟨_, W2, h3, h4⟩ := SM.bind_ok h1
    rw [modify_iff] at h3
    subst h3
    obtain ⟨W3, W4, h5, h6⟩ := SM.bind_ok h4
    obtain ⟨rfl, rfl⟩ := get_iff.mp h5
    have hf := congrArg Prod.snd (fr_updateStep.fr _ _ _ h6)
    simp only [frame] at hf
    rw [hf]
    rfl

theorem orderRun_adm (h : OrderRun β σ ops W W') : (konsB W.book).1 = [] → AdmRun β σ ops W W' := by
  induction h with
  | nil W => exact fun _ => .nil W
  | cons ho hp he ha hx _ ih =>
    intro hk
    have none : ∀ c, c ∉ _ := fun c hc => by
      have := List.mem_map_of_mem (f := fun c : CState => c.con) hc
      unfold konsB at hk
      dsimp only at hk
      rw [hk] at this
      cases this
    exact .cons hp (fun cc hcc => ⟨(he cc hcc).1, (he cc hcc).2, fun c hc => absurd hc (none c), fun ⟨c, hc, _⟩ => absurd hc (none c)⟩) ha hx
      (ih ((exec_cons ho hx).trans hk))

/-- **C17** Over any sequence of calls that do not add constraints (introducing order literals, attaching simple constraints and domains,
decisions and propagation of order literals on any levels, checks that integrate facts, undoing), all clauses that are posted hold for
each assignment of values within the domains when order literals are read as "variable ≤ value". -/
theorem C17_order_clauses (hn : 1 < n) (h : OrderRun β σ ops (World.init n) W) (hr : Respects β σ W.log) : AllHold β W.log ∧ Good β σ W :=
  C57_run_sound_partial hn (orderRun_adm h rfl) hr

/-! ### A concrete case -/

/-- Decides whether calls are admitted; used in examples. -/
def admB (σ : Nat → Int) (W : World) : Op → Bool
  | .addVar lo hi => decide (lo ≤ σ W.vars.length) && decide (σ W.vars.length ≤ hi)
  | .addConstraint (.sum l rhs es) => l != 0 && (decide ((es.map (·.2)).Nodup) && decide (wsum σ es ≤ rhs))
  | .addConstraint (.distinct l es) => l != 0 && decide ((es.map (fun e => wsum σ e.1 + e.2)).Nodup)
  | .propagate _ ls => ls.all (· != 0)
  | .literal .. => true
  | .check .. => true
  | .undo => true
  | .decide .. => true
  | .checkFull .. => true
  | .update .. => true
  | _ => false

theorem admitted_of {op : Op} (h : admB σ W op = true) : admitted β σ W op := by
  cases op with
  | addConstraint c =>
    cases c with
    | sum l rhs es =>
      simp only [admB, Bool.and_eq_true, bne_iff_ne, decide_eq_true_eq] at h
      exact ⟨h.1, h.2.1, fun _ => h.2.2⟩
    | distinct l es =>
      simp only [admB, Bool.and_eq_true, bne_iff_ne, decide_eq_true_eq] at h
      exact ⟨h.1, fun _ => h.2⟩
    | _ => cases h
  | addVar lo hi => simpa [admB, admitted] using h
  | propagate cc ls => simpa [admB, admitted] using h
  | _ => first | exact trivial | cases h

def admAll (β : Nat → Bool) (σ : Nat → Int) : List Op → World → Bool
  | [], _ => true
  | op :: ops, W => admB σ W op && W.book.cs.all (fun c => match c.con with | .distinct l _ => litB β l | .disjoint .. => false | _ => true) &&
      (match op.exec W with | .ok p => admAll β σ ops p.2 | .error _ => false)

theorem admRun_of (he : ∀ op ∈ ops, ∀ cc, opEnv op = some cc → EnvSound cc β ∧ EnvMono cc) : ∀ {W W' : World},
    Run ops W W' → admAll β σ ops W = true → AdmRun β σ ops W W' := by
  induction ops with
  | nil => intro W W' h _; cases h; exact .nil _
  | cons op ops ih =>
    intro W W' h ha
    cases h with
    | cons hp hx hrun =>
      unfold admAll at ha
      rw [hx, Bool.and_eq_true, Bool.and_eq_true] at ha
      refine .cons hp (fun cc hcc => ?_) (admitted_of ha.1.1) hx (ih (fun o ho => he o (List.mem_cons_of_mem _ ho)) hrun ha.2)
      obtain ⟨h1, h2⟩ := he op (List.mem_cons_self ..) cc hcc
      refine ⟨h1, h2, fun c hc l hcon log _ _ => ?_, fun ⟨c, hc, l, es, hcon⟩ => ?_⟩
      · have := List.all_eq_true.mp ha.1.2 c hc
        rcases hcon with ⟨es, hcon⟩ | ⟨es, hcon⟩
        · rw [hcon] at this
          exact litB_iff.mp this
        · rw [hcon] at this
          cases this
      · have := List.all_eq_true.mp ha.1.2 c hc
        rw [hcon] at this
        cases this

/-- A Boolean solver on level 1 where `x > 2` (literal 6) and `y > 2` (literal 7) are true. -/
def decided : CC := assigns 1 [(6, true), (7, true)]

theorem assigns_sound {k : Nat} {atoms : List (Nat × Bool)} (h : β 1 = true) (hk : k ≠ 0) : EnvSound (assigns k atoms) β := by
  refine ⟨by simp [litTrue, h], fun log l _ ht hf => ?_, fun log l _ ht hf => ?_⟩
  all_goals
    rcases hf with hf | hf
    · simp only [CC.isFixed, assigns, beq_iff_eq] at hf
      simp only [CC.isTrue, CC.isFalse, CC.value, assigns, hf] at ht
      unfold litTrue
      rw [hf]
      split_ifs at ht ⊢ <;> simp_all
    · exact absurd hf hk

/-- `2x - y ≤ 3` and `x ≠ y` for variables between 0 and 10: propagation on the top level gives `x ≤ 6`, and after the decision
`x > 2`, the clause `x > 2 → y > 2` is added. The decision is undone. -/
def session : List Op := [.addVar 0 10, .addVar 0 10, .addConstraint (.sum 1 3 [(2, 0), (-1, 1)]), .addConstraint (.distinct 1 [([(1, 0)], 0), ([(1, 1)], 0)]),
  .check idle true 9, .literal idle 0 2, .propagate decided [6], .check decided true 9, .undo, .check idle true 9]

def sessionEnd : World := (tryRun session (World.init 6)).getD (World.init 6)

/-- The hypotheses of `C57_run_sound_partial` are met for the solution `x = 4, y = 7`. -/
example : AdmRun (fun _ => true) (fun v => if v = 0 then 4 else 7) session (World.init 6) sessionEnd ∧
    Respects (fun _ => true) (fun v => if v = 0 then 4 else 7) sessionEnd.log ∧
    sessionEnd.log.filter (fun e => !e.isOrder) = [.clause [-6, 7], .watch 7, .watch (-7), .lit 7, .watch 6, .watch (-6), .lit 6, .clause [1]] ∧
    boundsOf sessionEnd = [(0, 6), (0, 10)] := by
  refine ⟨admRun_of ?_ (tryRun_getD (by decide +kernel)) (by decide +kernel), respects_of (by decide +kernel), by decide +kernel, by decide +kernel⟩
  intro op ho cc hcc
  have h1 : EnvSound idle (fun _ => true) ∧ EnvMono idle := ⟨idle_sound rfl, idle_mono⟩
  have h2 : EnvSound decided (fun _ => true) ∧ EnvMono decided := ⟨assigns_sound rfl (by decide), fun _ _ _ _ h => h⟩
  simp only [session, List.mem_cons, List.not_mem_nil, or_false] at ho
  rcases ho with rfl | rfl | rfl | rfl | rfl | rfl | rfl | rfl | rfl | rfl
  all_goals
    simp only [opEnv, Option.some.injEq, reduceCtorEq] at hcc
    try subst hcc
    try assumption

theorem orderRun_of (h : AdmRun β σ ops W W') : (∀ op ∈ ops, noConstraint op) → OrderRun β σ ops W W' := by
  induction h with
  | nil W => exact fun _ => .nil W
  | cons hp he ha hx _ ih =>
    exact fun ho => .cons (ho _ (List.mem_cons_self ..)) hp (fun cc hcc => ⟨(he cc hcc).sound, (he cc hcc).mono⟩) ha hx
      (ih (fun o h => ho o (List.mem_cons_of_mem _ h)))

/-- Order literals for `x ≤ 5` (the negation of 2), `x ≤ 2` (3), and `x ≤ 7` (4); after the decision `x ≤ 2`, two clauses are added. -/
def orderSession : List Op := [.addVar 0 10, .literal idle 0 5, .literal idle 0 2, .literal idle 0 7, .propagate (assigns 1 [(3, false)]) [-3], .undo]

def orderEnd : World := (tryRun orderSession (World.init 2)).getD (World.init 2)

/-- The hypotheses of `C17_order_clauses` are met for `x = 1`. -/
example : OrderRun (fun a => decide (a = 1)) (fun _ => 1) orderSession (World.init 2) orderEnd ∧
    Respects (fun a => decide (a = 1)) (fun _ => 1) orderEnd.log ∧
    orderEnd.log.filter (fun e => match e with | .clause _ => true | _ => false) = [.clause [2, -4], .clause [3, -2]] := by
  refine ⟨orderRun_of (admRun_of ?_ (tryRun_getD (by decide +kernel)) (by decide +kernel)) ?_, respects_of (by decide +kernel), by decide +kernel⟩
  · intro op ho cc hcc
    have h1 : EnvSound idle (fun a => decide (a = 1)) ∧ EnvMono idle := ⟨idle_sound rfl, idle_mono⟩
    have h2 : EnvSound (assigns 1 [(3, false)]) (fun a => decide (a = 1)) ∧ EnvMono (assigns 1 [(3, false)]) := ⟨assigns_sound rfl (by decide), fun _ _ _ _ h => h⟩
    simp only [orderSession, List.mem_cons, List.not_mem_nil, or_false] at ho
    rcases ho with rfl | rfl | rfl | rfl | rfl | rfl
    all_goals
      simp only [opEnv, Option.some.injEq, reduceCtorEq] at hcc
      try subst hcc
      try assumption
  · intro op ho
    simp only [orderSession, List.mem_cons, List.not_mem_nil, or_false] at ho
    rcases ho with rfl | rfl | rfl | rfl | rfl | rfl <;> trivial

/-- The hypotheses of `C17_propagate` are met for the state before the decision. -/
def orderStart : World := (tryRun (orderSession.take 4) (World.init 2)).getD (World.init 2)
def orderNext : World := (tryRun [.propagate (assigns 1 [(3, false)]) [-3]] orderStart).getD (World.init 2)

example : EnvSound (assigns 1 [(3, false)]) (fun a => decide (a = 1)) ∧ Inv (fun a => decide (a = 1)) (fun _ => 1) orderStart ∧
    (∃ r, solverPropagate (assigns 1 [(3, false)]) [-3] orderStart = .ok (r, orderNext)) ∧ Respects (fun a => decide (a = 1)) (fun _ => 1) orderNext.log :=
  ⟨assigns_sound rfl (by decide), inv_of (by decide +kernel), run_one (op := .propagate (assigns 1 [(3, false)]) [-3]) (tryRun_getD (by decide +kernel)),
    respects_of (by decide +kernel)⟩

end Clingcon.Props
