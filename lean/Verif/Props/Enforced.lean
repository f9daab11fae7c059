import Verif.Proof.MeanRun
import Verif.Props.Given
import Verif.Props.Attach
import Verif.Props.Reports

/-! C64: order literals have their meaning and what has been added is enforced in accepted assignments. -/
set_option linter.unusedVariables false
namespace Clingcon.Props
open Clingcon Spec

variable {cc : CC} {β : Nat → Bool} {σ : Nat → Int} {W W' : World} {n : Int} {ops : List Op} {t : Told} {ts ts' : List Told}

theorem holds_step {op : Op} {r : Bool} (h : GI W ts) (hp : op.pre W) (hf : feedPre ts W op) (he : ∀ cc, opEnv op = some cc → EnvSound cc β) (ho : okOp r op)
    (hx : op.exec W = .ok (r, W')) (ha : AllHold β W'.log) (hr : Respects β σ W'.log) (hm : Meets β σ W') : holdsOp β σ W.vars.length op := by
  have mean := mean_step (σ := σ) h hp hf he ho hx
  have hm0 := (mean.back ha hm).1
  have inv : Inv β σ W := by
    obtain ⟨new, e⟩ := mean.log
    rw [e] at ha
    exact hm0.inv h.ti (AllHold.suffix ha)
  cases op with
  | addVar lo hi =>
    obtain ⟨_, W1, g1, g2⟩ := SM.bind_ok hx
    obtain ⟨-, rfl⟩ := pure_iff.mp g2
    obtain ⟨v, g3⟩ := discard_iff.mp g1
    obtain ⟨-, e, -, hb⟩ := mean_addVar (β := β) (σ := σ) h.ti g3
    rw [e] at hb
    exact hb hm
  | simple cc l co v k s =>
    obtain ⟨rfl, h0, hc⟩ := ho
    exact C15_enforced (he cc rfl) h0 hp.1 hc inv hx hr ha hm.facts
  | dom cc l v d =>
    obtain ⟨rfl, h0, hl, hd, hne⟩ := ho
    exact C16_enforced_partial (he cc rfl) h0 hl hd hne inv hx hr ha hm.facts
  | updateBounds cc os b k =>
    obtain ⟨rfl, h0⟩ := ho
    have hx : updateBounds cc os b k W = .ok (true, W') := hx
    unfold updateBounds at hx
    rw [bind_iff] at hx
    obtain ⟨a, W1, h1, hx⟩ := hx
    cases a with
    | false => cases hx
    | true =>
    simp only [Bool.not_true, Bool.false_eq_true, if_false] at hx
    have flat := MF.refl (β := β) (σ := σ) (cc := cc) h hf
    have m1 : MF β σ (cc.level = 0) W W1 := by
      refine Kw.kw (P := MF β σ (cc.level = 0) W) ?_ _ _ _ h1 flat
      have := mf_prim0 (β := β) (σ := σ) (z := cc.level = 0) (W0 := W)
      kw_auto
    have m2 : Mean β σ W1 W' := ((mf_solverCheck (he cc rfl)).kw _ _ _ hx ⟨Mean.refl m1.1.ti, m1.2⟩).1
    obtain ⟨new, e⟩ := m2.log
    obtain ⟨hm1, -⟩ := m2.back ha hm
    refine C61_enforced (he cc rfl).tt inv h1 (fun v hv => ?_) (fun l v k hh => hr l v k (by rw [e]; exact List.mem_append_right _ hh)) ?_ hm1.facts
    · have hlt : v < W.vars.length := by
        rcases takeBounds_len h1 with rfl | hq
        · simp at hv
        · omega
      have := hm0.bound v hlt
      rw [(flat.2 h0).bounds.1, (flat.2 h0).bounds.2] at this
      rw [lowerOf_fun, upperOf_fun] at this
      exact this
    · rw [e] at ha; exact AllHold.suffix ha
  | _ => trivial

theorem holds_run {Wf : World} (h : OkFed β ops W ts Wf ts') : GI W ts → AllHold β Wf.log → Respects β σ Wf.log → Meets β σ Wf → holdsAll β σ W.vars.length ops := by
  induction h with
  | nil => intros; trivial
  | cons hp hf he ho hx hrest ih =>
    intro hg ha hr hm
    have hg1 := gi_step hg hp hf hx
    have mean := ok_mean (σ := σ) hrest hg1
    obtain ⟨hm1, -⟩ := mean.back ha hm
    obtain ⟨new, e⟩ := mean.log
    refine ⟨holds_step hg hp hf he ho hx ?_ (fun l v k hh => hr l v k (by rw [e]; exact List.mem_append_right _ hh)) hm1, ?_⟩
    · rw [e] at ha; exact AllHold.suffix ha
    · rw [← step_len hx]
      exact ih hg1 ha hr hm

theorem meets_end (hn : 1 < n) (h : Fed ops (World.init n) [Told.none] W (t :: ts)) (hf : W.factmap = []) (hb : Passed β W t)
    (hs : ∀ v, v < W.vars.length → lowerOf W v ≤ σ v ∧ σ v ≤ upperOf W v) : Meets β σ W := by
  refine ⟨fun v k l ho => ?_, fun v hv => ?_, fun f v k p hp => by rw [hf] at hp; cases hp⟩
  · have hv := ord_lt ho
    have g : W.getValue v = some W.vars[v].lower := by unfold World.getValue; rw [List.getElem?_eq_getElem hv]; rfl
    exact (((C50_value hn h hf hb g).2 k l ho).2 (σ v) (hs v hv).1 (hs v hv).2)
  · have g : W.vars[v]? = some W.vars[v] := List.getElem?_eq_getElem hv
    obtain ⟨h1, h2, h3⟩ := (fed_reach hn h).nested.get g
    obtain ⟨b1, b2⟩ := hs v hv
    have e1 : lowerOf W v = W.vars[v].lower := by simp [lowerOf, boundsOf, g]
    have e2 : upperOf W v = W.vars[v].upper := by simp [upperOf, boundsOf, g]
    rw [(mn_get g).1, (mn_get g).2]
    constructor
    · refine le_trans ?_ b1
      rw [e1]
      unfold VarState.minBound
      cases hg : W.vars[v].lowerStack.getLast? with
      | none => exact le_refl _
      | some p => exact (List.pairwise_cons.mp h2).1 _ (List.mem_map_of_mem (List.mem_of_getLast? hg))
    · refine le_trans b2 ?_
      rw [e2]
      unfold VarState.maxBound
      cases hg : W.vars[v].upperStack.getLast? with
      | none => exact le_refl _
      | some p => exact (List.pairwise_cons.mp h3).1 _ (List.mem_map_of_mem (List.mem_of_getLast? hg))

/-- **C64** Consider any sequence of calls as in `OkFed` and a total assignment that satisfies all posted clauses and agrees with what the Boolean solver
assigns on the top level. If for each order literal in the tables the literal or its complement has been passed to `propagate` without a conflict and facts have been
integrated, then *every* literal that has ever been introduced as an order literal, including the ones that have been removed from the tables since then, is
true exactly if the value of the variable is at most the value of the literal. The value may be any value within the current bounds. -/
theorem C64_meaning (hn : 1 < n) (h : OkFed β ops (World.init n) [Told.none] W (t :: ts)) (hf : W.factmap = []) (hb : Passed β W t) (hp : AllHold β W.log)
    (hs : ∀ v, v < W.vars.length → lowerOf W v ≤ σ v ∧ σ v ≤ upperOf W v) : Respects β σ W.log := by
  intro l v k hl
  rcases ((ok_mean (σ := σ) h (gi_init hn)).back hp (meets_end hn (ok_fed h) hf hb hs)).2 l v k hl with hq | hq
  · cases hq
  · exact hq

/-- **C64** Moreover, everything that has been added holds: the values are in the domains given for the variables, constraints over one variable
hold if their literals are true (and only if, for strict ones), domain constraints hold if their literals are true, and the values are within the bounds taken over from other solvers. -/
theorem C64_enforced (hn : 1 < n) (h : OkFed β ops (World.init n) [Told.none] W (t :: ts)) (hf : W.factmap = []) (hb : Passed β W t) (hp : AllHold β W.log)
    (hs : ∀ v, v < W.vars.length → lowerOf W v ≤ σ v ∧ σ v ≤ upperOf W v) : holdsAll β σ 0 ops :=
  holds_run h (gi_init hn) hp (C64_meaning hn h hf hb hp hs) (meets_end hn (ok_fed h) hf hb hs)

/-- **C64** If, in addition, the final check succeeds without introducing literals, then the reported values form a solution: all variables have a
unique value, order literals have their meaning, everything added holds, and so do the constraints whose literals are true. -/
theorem C64_solution {u : Unit} (hn : 1 < n) (h : OkFed β ops (World.init n) [Told.none] W (t :: ts)) (hf : W.factmap = []) (hb : Passed β W t) (hp : AllHold β W.log)
    (hi : InRange W) (hx : solverCheckFull cc true W = .ok ((), W')) (hl : W'.log = W.log) :
    AllFixed W ∧ Respects β (lowerOf W) W.log ∧ holdsAll β (lowerOf W) 0 ops ∧
    ∀ (n : Nat) (c : CState), W.book.cs[n]? = some c → c.alive = true → cc.isTrue W.log c.con.lit = true → conHolds (lowerOf W) W.book.minimizeBound c.con := by
  obtain ⟨h1, -, h3⟩ := C24_accepted_run hn (ok_fed h) hf hb hi hx hl
  have hs : ∀ v, v < W.vars.length → lowerOf W v ≤ lowerOf W v ∧ lowerOf W v ≤ upperOf W v := by
    intro v hv
    have g : W.vars[v]? = some W.vars[v] := List.getElem?_eq_getElem hv
    have := ((fed_reach hn (ok_fed h)).nested.get g).1
    refine ⟨le_refl _, ?_⟩
    have e1 : lowerOf W v = W.vars[v].lower := by simp [lowerOf, boundsOf, g]
    have e2 : upperOf W v = W.vars[v].upper := by simp [upperOf, boundsOf, g]
    rw [e1, e2]
    exact this
  exact ⟨h1, C64_meaning hn h hf hb hp hs, C64_enforced hn h hf hb hp hs, h3⟩

/-! ### A concrete case -/

/-- The Boolean solver after all literals have been assigned on the first level. -/
def okAll : CC := assigns 1 [(2, true), (3, true), (4, true), (5, false)]

/-- Variables `x` with domain `[0, 1]` and `y` with domain `[0, 3]`; the literal `2` is equivalent to `x ≤ 0`, the literal `3` implies `y = 1`, the fact
`y ≤ 2`, and the literal `3` implies `x + y ≤ 1`. Then, all literals but `5` become true on the first level; this is the negated order literal for `y ≤ 1`. -/
def ok1 := after (.addVar 0 1) (World.init 4)
def ok2 := after (.addVar 0 3) ok1
def ok3 := after (.simple idle 2 1 0 0 true) ok2
def ok4 := after (.dom idle 3 1 [(1, 2)]) ok3
def ok5 := after (.simple idle 1 1 1 2 false) ok4
def ok6 := after (.addConstraint (.sum 3 1 [(1, 0), (1, 1)])) ok5
def ok7 := after (.check idle false 9) ok6
def ok8 := after (.propagate okAll [2, 4, -5]) ok7
def ok9 := after (.check okAll false 9) ok8

def okOps : List Op := [.addVar 0 1, .addVar 0 3, .simple idle 2 1 0 0 true, .dom idle 3 1 [(1, 2)], .simple idle 1 1 1 2 false,
  .addConstraint (.sum 3 1 [(1, 0), (1, 1)]), .check idle false 9, .propagate okAll [2, 4, -5], .check okAll false 9]

def okβ (a : Nat) : Bool := decide (a ≠ 5)

def okTold : Told := Told.none.add true [2, 4, -5]

theorem ok_setup {ops : List Op} {W : World} {ts : List Told} (h : OkFed okβ ops ok7 [Told.none] W ts) :
    OkFed okβ (.addVar 0 1 :: .addVar 0 3 :: .simple idle 2 1 0 0 true :: .dom idle 3 1 [(1, 2)] :: .simple idle 1 1 1 2 false ::
      .addConstraint (.sum 3 1 [(1, 0), (1, 1)]) :: .check idle false 9 :: ops) (World.init 4) [Told.none] W ts := by
  have s0 : ∀ cc, some idle = some cc → EnvSound cc okβ := fun cc e => by cases e; exact idle_sound (by decide)
  have s2 : ∀ cc, (none : Option CC) = some cc → EnvSound cc okβ := fun cc e => by cases e
  refine .cons (Op.preB_iff.mp (by decide +kernel)) trivial s2 trivial (after_eq (r := true) (by decide +kernel)) ?_
  refine .cons (Op.preB_iff.mp (by decide +kernel)) trivial s2 trivial (after_eq (r := true) (by decide +kernel)) ?_
  refine .cons (Op.preB_iff.mp (by decide +kernel)) ⟨by decide +kernel, ?_⟩ s0 ⟨rfl, rfl, by decide⟩ (after_eq (r := true) (by decide +kernel)) ?_
  · intro t ht l hl
    have ht : t ∈ [Told.none] := ht
    rw [List.mem_singleton] at ht
    subst ht
    exact hl.elim
  refine .cons (Op.preB_iff.mp (by decide +kernel)) ?_ s0 ⟨rfl, rfl, by decide, by constructor <;> simp, by decide⟩ (after_eq (r := true) (by decide +kernel)) ?_
  · show _ ≤ _
    decide +kernel
  refine .cons (Op.preB_iff.mp (by decide +kernel)) ⟨by decide +kernel, ?_⟩ s0 ⟨rfl, rfl, by decide⟩ (after_eq (r := true) (by decide +kernel)) ?_
  · intro t ht l hl
    have ht : t ∈ [Told.none] := ht
    rw [List.mem_singleton] at ht
    subst ht
    exact hl.elim
  refine .cons (Op.preB_iff.mp (by decide +kernel)) trivial s2 trivial (after_eq (r := true) (by decide +kernel)) ?_
  refine .cons (Op.preB_iff.mp (by decide +kernel)) ?_ s0 trivial (after_eq (r := true) (by decide +kernel)) ?_
  · show _ ≤ _
    decide +kernel
  exact h

theorem ok_run : OkFed okβ okOps (World.init 4) [Told.none] ok9 [okTold, Told.none] := by
  have s1 : ∀ cc, some okAll = some cc → EnvSound cc okβ := fun cc e => by cases e; exact assigns_sound (by decide) (by decide)
  refine ok_setup ?_
  refine .cons (Op.preB_iff.mp (by decide +kernel)) ?_ s1 trivial (after_eq (r := true) (by decide +kernel)) ?_
  · show _ ≤ _ ∧ _
    decide +kernel
  have e1 : toldAfter (.propagate okAll [2, 4, -5]) ok7 ok8 true [Told.none] = [okTold, Told.none] := by
    have : ok7.book.levels.length < ok8.book.levels.length := by decide +kernel
    simp only [toldAfter, if_pos this, okTold]
  show OkFed _ _ ok8 (toldAfter (.propagate okAll [2, 4, -5]) ok7 ok8 true [Told.none]) _ _
  rw [e1]
  refine .cons (Op.preB_iff.mp (by decide +kernel)) ?_ s1 trivial (after_eq (r := true) (by decide +kernel)) (.nil _ _)
  show _ ≤ _
  decide +kernel

theorem ok_passed : Passed okβ ok9 okTold := by
  have hv : ok9.vars.map (·.with) = [[(0, 2)], [(0, -4), (1, -5)]] := by decide +kernel
  rintro v k l ⟨vs, h1, h2⟩
  have : vs.with ∈ ok9.vars.map (·.with) := List.mem_map_of_mem (List.mem_of_getElem? h1)
  rw [hv] at this
  simp only [List.mem_cons, List.not_mem_nil, or_false] at this
  rcases this with this | this
  all_goals
    rw [this] at h2
    simp only [List.mem_cons, Prod.mk.injEq, List.not_mem_nil, or_false] at h2
  · obtain ⟨rfl, rfl⟩ := h2
    exact ⟨fun _ => Or.inr ⟨rfl, by simp⟩, fun h => by simp [litTrue, okβ] at h⟩
  · rcases h2 with ⟨rfl, rfl⟩ | ⟨rfl, rfl⟩
    · exact ⟨fun h => by simp [litTrue, okβ] at h, fun _ => Or.inr ⟨rfl, by simp⟩⟩
    · exact ⟨fun _ => Or.inr ⟨rfl, by simp⟩, fun h => by simp [litTrue, okβ] at h⟩

/-- The hypotheses of the theorems are met, and `x = 0` and `y = 1` are reported. -/
example : ok9.factmap = [] ∧ Passed okβ ok9 okTold ∧ AllHold okβ ok9.log ∧ InRange ok9 ∧ (solverCheckFull okAll true ok9).toOption.map (fun p => p.2.log) = some ok9.log ∧
    ok9.getValue 0 = some 0 ∧ ok9.getValue 1 = some 1 := by
  refine ⟨by decide +kernel, ok_passed, allHold_of (by decide +kernel), ?_, by decide +kernel, by decide +kernel, by decide +kernel⟩
  have e : boundsOf ok9 = [(0, 0), (1, 1)] := by decide +kernel
  intro v
  unfold lowerOf upperOf
  rw [e]
  match v with
  | 0 => exact ⟨by decide, by decide⟩
  | 1 => exact ⟨by decide, by decide⟩
  | _ + 2 => constructor <;> (simp only [List.getElem?_cons_succ, List.getElem?_nil, Option.elim_none]; decide)

end Clingcon.Props
