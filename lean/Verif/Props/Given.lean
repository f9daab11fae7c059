import Verif.Proof.GivenFacts
import Verif.Model.Value
import Verif.Spec.BoundLits
import Verif.Props.Final
import Verif.Props.Cover

/-! C50: reported values agree with the order literals. -/
set_option linter.unusedVariables false
namespace Clingcon.Props
open Clingcon Spec

variable {cc : CC} {β : Nat → Bool} {W W' : World} {n : Int} {ops : List Op} {t : Told} {ts : List Told}

/-- A total assignment has been passed: for each order literal the one of the literal and its complement that is true. -/
def Passed (β : Nat → Bool) (W : World) (t : Told) : Prop :=
  ∀ v k l, OrdLit W v k l → (litTrue β l → t.done l) ∧ (¬ litTrue β l → t.done (-l))

theorem fed_reach (hn : 1 < n) (h : Fed ops (World.init n) [Told.none] W ts) : Reach W := ⟨n, ops, hn, Fed.run h⟩

theorem fed_top (hn : 1 < n) (h : Fed ops (World.init n) [Told.none] W (t :: ts)) : TQ W t (lowerOf W) (upperOf W) := by
  obtain ⟨t', ts', e, q⟩ := (gi_fed h (gi_init hn)).gs.head
  obtain ⟨rfl, rfl⟩ := List.cons.inj e
  rwa [lowerOf_fun, upperOf_fun] at q

theorem no_facts (hn : 1 < n) (h : Fed ops (World.init n) [Told.none] W ts) (hf : W.factmap = []) {v : Nat} {k l : Int} (ho : OrdLit W v k l) : l.natAbs ≠ 1 := by
  intro h1
  obtain ⟨p, hp⟩ := (FI.run (Fed.run h) (FI.init hn)).inn v k l ho h1
  rw [hf] at hp
  cases hp

/-- **C50** Consider any sequence of calls, with decisions, propagation, and undoing in any order, such that all facts have been
integrated, and a total assignment such that for each order literal the literal or its complement has been passed to `propagate` without a
conflict. Then, the value that is reported for a variable is within its current bounds and within its domain on the top level, and each order literal is true
exactly if the value is at most the value of the order literal. In fact, this holds for all values
within the current bounds. -/
theorem C50_value (hn : 1 < n) (h : Fed ops (World.init n) [Told.none] W (t :: ts)) (hf : W.factmap = []) (hb : Passed β W t) {v : Nat} {x : Int}
    (hx : W.getValue v = some x) :
    (∃ vs, W.vars[v]? = some vs ∧ vs.minBound ≤ x ∧ x ≤ vs.maxBound ∧ vs.lower ≤ x ∧ x ≤ vs.upper) ∧
    ∀ k l, OrdLit W v k l → (litTrue β l ↔ x ≤ k) ∧ ∀ y, lowerOf W v ≤ y → y ≤ upperOf W v → (litTrue β l ↔ y ≤ k) := by
  have hr := fed_reach hn h
  unfold World.getValue at hx
  rw [Option.map_eq_some_iff] at hx
  obtain ⟨vs, hv, rfl⟩ := hx
  obtain ⟨h1, h2, h3⟩ := hr.nested.get hv
  have key : ∀ k l, OrdLit W v k l → ∀ y, lowerOf W v ≤ y → y ≤ upperOf W v → (litTrue β l ↔ y ≤ k) := by
    intro k l ho y hy1 hy2
    obtain ⟨f1, f2⟩ := (fed_top hn h).fwd v k l ho (no_facts hn h hf ho)
    obtain ⟨b1, b2⟩ := hb v k l ho
    by_cases hl : litTrue β l
    · have := f1 (b1 hl)
      exact ⟨fun _ => by omega, fun _ => hl⟩
    · have := f2 (b2 hl)
      exact ⟨fun hq => absurd hq hl, fun _ => by omega⟩
  have e1 : lowerOf W v = vs.lower := by simp [lowerOf, boundsOf, hv]
  have e2 : upperOf W v = vs.upper := by simp [upperOf, boundsOf, hv]
  refine ⟨⟨vs, hv, ?_, ?_, le_refl _, h1⟩, fun k l ho => ⟨key k l ho _ (by omega) (by omega), key k l ho⟩⟩
  · unfold VarState.minBound
    cases hg : vs.lowerStack.getLast? with
    | none => exact le_refl _
    | some p => exact (List.pairwise_cons.mp h2).1 _ (List.mem_map_of_mem (List.mem_of_getLast? hg))
  · unfold VarState.maxBound
    refine le_trans h1 ?_
    cases hg : vs.upperStack.getLast? with
    | none => exact le_refl _
    | some p => exact (List.pairwise_cons.mp h3).1 _ (List.mem_map_of_mem (List.mem_of_getLast? hg))

/-- **C50** The symbols added to a model contain the reported values of exactly the given variables. -/
theorem C50_symbols {names : List (String × Nat)} (hv : ∀ m ∈ names, m.2 < W.vars.length) :
    (W.modelSymbols names).map (·.1) = names.map (·.1) ∧ ∀ s x, (s, x) ∈ W.modelSymbols names ↔ ∃ v, (s, v) ∈ names ∧ W.getValue v = some x := by
  unfold World.modelSymbols
  constructor
  · induction names with
    | nil => rfl
    | cons m ms ih =>
      have : ∃ x, W.getValue m.2 = some x := by
        unfold World.getValue
        rw [List.getElem?_eq_getElem (hv m (List.mem_cons_self ..))]
        exact ⟨_, rfl⟩
      obtain ⟨x, hx⟩ := this
      rw [List.filterMap_cons, hx]
      simp only [Option.map_some, List.map_cons]
      rw [ih fun m hm => hv m (List.mem_cons_of_mem _ hm)]
  · intro s x
    rw [List.mem_filterMap]
    constructor
    · rintro ⟨⟨s', v⟩, hm, e⟩
      rw [Option.map_eq_some_iff] at e
      obtain ⟨y, hy, e⟩ := e
      obtain ⟨rfl, rfl⟩ := Prod.mk.inj e
      exact ⟨v, hm, hy⟩
    · rintro ⟨v, hm, hx⟩
      exact ⟨(s, v), hm, by rw [hx]; rfl⟩

theorem checkLoop_facts {ck : Bool} {lvl : Nat} : ∀ {fuel : Nat} {W W' : World}, checkLoop cc ck lvl fuel W = .ok (true, W') → W'.factmap = []
  | 0, W, W', h => by cases h
  | f + 1, W, W', h => by
    unfold checkLoop at h
    rw [bind_iff] at h
    obtain ⟨ok, W1, h1, h⟩ := h
    cases ok with
    | false => cases h
    | true =>
      simp only [Bool.not_true, Bool.false_eq_true, if_false] at h
      rw [bind_iff] at h
      obtain ⟨_, W2, h2, h⟩ := h
      rw [bind_iff] at h
      obtain ⟨X, W3, h3, h⟩ := h
      rw [bind_iff] at h
      obtain ⟨r, W4, h4, h⟩ := h
      rw [bind_iff] at h
      obtain ⟨_, W5, h5, h⟩ := h
      rw [bind_iff] at h
      obtain ⟨Y, W6, h6, h⟩ := h
      obtain ⟨rfl, rfl⟩ := get_iff.mp h6
      split_ifs at h with hc
      · obtain ⟨rfl, rfl⟩ := pure_iff.mp h
        simpa using hc
      · exact checkLoop_facts h

/-- **C50** After a successful check on the current decision level (or before solving), all facts have been integrated. -/
theorem C50_integrated {ck : Bool} {fuel : Nat} (hl : cc.level = W.level ∨ W.level < W.book.minimizeLevel) (h : solverCheck cc ck fuel W = .ok (true, W')) : W'.factmap = [] := by
  unfold solverCheck at h
  rw [bind_iff] at h
  obtain ⟨l, W1, h1, h⟩ := h
  obtain ⟨e, rfl⟩ := curLevel_level h1
  rw [bind_iff] at h
  obtain ⟨X, W2, h2, h⟩ := h
  obtain ⟨rfl, rfl⟩ := get_iff.mp h2
  rw [e, if_neg (by omega)] at h
  exact checkLoop_facts h

theorem boundLits_told (q : TQ W t (lowerOf W) (upperOf W)) (hc : ∀ l, t.tried l → cc.isTrue W.log l = true) : BoundLits cc W := by
  intro v vs hv
  have e1 : lowerOf W v = vs.lower := by simp [lowerOf, boundsOf, hv]
  have e2 : upperOf W v = vs.upper := by simp [upperOf, boundsOf, hv]
  obtain ⟨m1, m2⟩ := mn_get hv
  obtain ⟨r1, r2⟩ := q.rev v
  rw [m2, e2] at r1
  rw [m1, e1] at r2
  refine ⟨fun hlt => ?_, fun hlt => ?_⟩
  · obtain ⟨l, ⟨vs', hv', hm⟩, ht⟩ := r2 hlt
    rw [hv] at hv'
    injection hv' with hv'
    subst hv'
    refine ⟨l, hm, ?_⟩
    have h0 := (q.known _ ht).1
    have := hc _ ht
    unfold CC.isTrue at this
    unfold CC.isFalse
    unfold CC.value at this ⊢
    rw [Int.natAbs_neg] at this
    revert this
    cases cc.atom W.log l.natAbs with
    | none => split_ifs <;> simp
    | some b => cases b <;> split_ifs <;> first | omega | simp
  · obtain ⟨l, ⟨vs', hv', hm⟩, ht⟩ := r1 hlt
    rw [hv] at hv'
    injection hv' with hv'
    subst hv'
    exact ⟨l, hm, hc _ ht⟩

/-- **C50** The bounds of variables are justified by order literals as long as the literals that have been passed to `propagate` are true; this
is the assumption of `C35_propagate_sound_partial`. -/
theorem C50_justified (hn : 1 < n) (h : Fed ops (World.init n) [Told.none] W (t :: ts)) (hc : ∀ l, t.tried l → cc.isTrue W.log l = true) : BoundLits cc W :=
  boundLits_told (fed_top hn h) hc

/-- **C24** If for a total assignment all order literals have been passed to `propagate` without a conflict, facts have been integrated, and the final check succeeds without
introducing literals, then all variables are fixed, all order literals have the truth values required by the reported values, and all
constraints whose literals are true hold for them. -/
theorem C24_accepted_run {u : Unit} (hn : 1 < n) (h : Fed ops (World.init n) [Told.none] W (t :: ts)) (hf : W.factmap = []) (hb : Passed β W t) (hi : InRange W)
    (hx : solverCheckFull cc true W = .ok (u, W')) (hl : W'.log = W.log) :
    AllFixed W ∧ (∀ v k l, OrdLit W v k l → (litTrue β l ↔ lowerOf W v ≤ k)) ∧ ∀ (n : Nat) (c : CState), W.book.cs[n]? = some c → c.alive = true → cc.isTrue W.log c.con.lit = true →
      conHolds (lowerOf W) W.book.minimizeBound c.con := by
  have hr := fed_reach hn h
  have q := fed_top hn h
  obtain ⟨h1, h2⟩ := C24_accepted hr hi (fun v k hh => by
    obtain ⟨vs, l, hv, hm⟩ := hh
    have ho : OrdLit W v k l := ⟨vs, hv, hm⟩
    obtain ⟨f1, f2⟩ := q.fwd v k l ho (no_facts hn h hf ho)
    obtain ⟨b1, b2⟩ := hb v k l ho
    by_cases hl : litTrue β l
    · exact Or.inr (f1 (b1 hl))
    · exact Or.inl (f2 (b2 hl))) hx hl
  refine ⟨h1, fun v k l ho => ?_, h2⟩
  obtain ⟨vs, hv, hm⟩ := ho
  have e1 : lowerOf W v = vs.lower := by simp [lowerOf, boundsOf, hv]
  rw [e1]
  exact ((C50_value hn h hf hb (x := vs.lower) (by unfold World.getValue; rw [hv]; rfl)).2 k l ⟨vs, hv, hm⟩).1

/-! ### A concrete case -/

/-- The state after a call. -/
def after (op : Op) (W : World) : World := ((op.exec W).toOption.map Prod.snd).getD W

theorem after_eq {op : Op} {r : Bool} (h : (op.exec W).toOption.map Prod.fst = some r) : op.exec W = .ok (r, after op W) := by
  unfold after
  cases hx : op.exec W with
  | error e => rw [hx] at h; cases h
  | ok p =>
    rw [hx] at h
    obtain ⟨a, b⟩ := p
    injection h with h
    subst h
    rfl

/-- A variable with domain `[0, 10]`, order literals `-2` for `x ≤ 5` and `-3` for `x ≤ 4`, and calls to `propagate`, the first is true
and the second is false. -/
def given1 := after (.addVar 0 10) (World.init 2)
def given2 := after (.literal (assigns 0 []) 0 5) given1
def given3 := after (.literal (assigns 0 []) 0 4) given2
def given4 := after (.propagate (assigns 1 [(2, false)]) [-2]) given3
def given5 := after (.propagate (assigns 1 [(2, false), (3, true)]) [3]) given4
def given6 := after (.check (assigns 1 [(2, false), (3, true)]) false 9) given5

def givenTold : Told := (Told.none.add true [-2]).add true [3]

theorem given_fed : Fed [.addVar 0 10, .literal (assigns 0 []) 0 5, .literal (assigns 0 []) 0 4, .propagate (assigns 1 [(2, false)]) [-2],
    .propagate (assigns 1 [(2, false), (3, true)]) [3], .check (assigns 1 [(2, false), (3, true)]) false 9] (World.init 2) [Told.none]
    given6 [givenTold, Told.none] := by
  refine .cons (Op.preB_iff.mp (by decide +kernel)) trivial (after_eq (r := true) (by decide +kernel)) ?_
  refine .cons (Op.preB_iff.mp (by decide +kernel)) ?_ (after_eq (r := true) (by decide +kernel)) ?_
  · show _ ≤ _
    decide +kernel
  refine .cons (Op.preB_iff.mp (by decide +kernel)) ?_ (after_eq (r := true) (by decide +kernel)) ?_
  · show _ ≤ _
    decide +kernel
  refine .cons (Op.preB_iff.mp (by decide +kernel)) ?_ (after_eq (r := true) (by decide +kernel)) ?_
  · show _ ≤ _ ∧ _
    decide +kernel
  have e1 : toldAfter (.propagate (assigns 1 [(2, false)]) [-2]) given3 given4 true [Told.none] = [Told.none.add true [-2], Told.none] := by
    have : given3.book.levels.length < given4.book.levels.length := by decide +kernel
    simp only [toldAfter, if_pos this]
  show Fed _ given4 (toldAfter (.propagate (assigns 1 [(2, false)]) [-2]) given3 given4 true [Told.none]) _ _
  rw [e1]
  refine .cons (Op.preB_iff.mp (by decide +kernel)) ?_ (after_eq (r := true) (by decide +kernel)) ?_
  · show _ ≤ _ ∧ _
    decide +kernel
  have e2 : toldAfter (.propagate (assigns 1 [(2, false), (3, true)]) [3]) given4 given5 true [Told.none.add true [-2], Told.none] =
      [givenTold, Told.none] := by
    have : ¬ given4.book.levels.length < given5.book.levels.length := by decide +kernel
    simp only [toldAfter, if_neg this, givenTold]
  show Fed _ given5 (toldAfter (.propagate (assigns 1 [(2, false), (3, true)]) [3]) given4 given5 true [Told.none.add true [-2], Told.none]) _ _
  rw [e2]
  refine .cons (Op.preB_iff.mp (by decide +kernel)) ?_ (after_eq (r := true) (by decide +kernel)) (.nil _ _)
  show _ ≤ _
  decide +kernel

/-- The hypotheses of `C50_value` are met, and the value `5` is reported. -/
example : given6.factmap = [] ∧ Passed (fun a => decide (a ≠ 2)) given6 givenTold ∧ given6.getValue 0 = some 5 ∧ OrdLit given6 0 5 (-2) ∧ OrdLit given6 0 4 (-3) := by
  have hv : given6.vars.map (·.with) = [[(4, -3), (5, -2)]] := by decide +kernel
  refine ⟨by decide +kernel, ?_, by decide +kernel, ?_, ?_⟩
  · rintro v k l ⟨vs, h1, h2⟩
    have : vs.with ∈ given6.vars.map (·.with) := List.mem_map_of_mem (List.mem_of_getElem? h1)
    rw [hv, List.mem_singleton] at this
    rw [this] at h2
    simp only [List.mem_cons, Prod.mk.injEq, List.not_mem_nil, or_false] at h2
    rcases h2 with ⟨rfl, rfl⟩ | ⟨rfl, rfl⟩
    · exact ⟨fun h => by simp [litTrue] at h, fun _ => Or.inr ⟨rfl, by simp⟩⟩
    · exact ⟨fun _ => Or.inl (Or.inr ⟨rfl, by simp⟩), fun h => by simp [litTrue] at h⟩
  all_goals
    have : (given6.vars.map (·.with))[0]? = some [(4, -3), (5, -2)] := by rw [hv]; rfl
    rw [List.getElem?_map, Option.map_eq_some_iff] at this
    obtain ⟨vs, h1, h2⟩ := this
    exact ⟨vs, h1, by rw [h2]; simp⟩

end Clingcon.Props
