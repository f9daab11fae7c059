import Verif.Spec.FedRuns
import Verif.Props.Given
import Verif.Props.RunSound

/-! Everything derived over sequences of calls is sound, with disjoint constraints: C57. -/
set_option linter.unusedVariables false
namespace Clingcon.Props
open Clingcon Clingcon.Spec

variable {cc : CC} {β : Nat → Bool} {σ : Nat → Int} {W W' : World} {n : Int} {ops : List Op} {ts ts' : List Told}

theorem level_pos (hw : WI W) (h : 1 < W.book.levels.length) : 0 < W.level := by
  have hd := hw.bi.dec
  have hb := hw.base
  change (W.book.levels.map (·.level)).Pairwise (· > ·) at hd
  unfold World.level
  match hh : W.book.levels with
  | [] => rw [hh] at h; simp at h
  | [x] => rw [hh] at h; simp at h
  | x :: y :: ls =>
    rw [hh] at hd
    have := (List.pairwise_cons.mp hd).1 y.level (by simp)
    have this : y.level < x.level := this
    show 0 < x.level
    omega

theorem admFed_admRun (h : AdmFed β σ ops W ts W' ts') : GI W ts → AdmRun β σ ops W W' := by
  induction h with
  | nil => exact fun _ => .nil _
  | @cons op ops W W1 W2 ts ts2 r hp hf he ha hx _ ih =>
    intro hi
    refine .cons hp (fun cc hcc => ?_) ha hx (ih (gi_step hi hp hf hx))
    have e := he cc hcc
    refine ⟨e.sound, e.mono, e.fixed, fun _ => ⟨?_, fun h1 => ?_⟩⟩
    · obtain ⟨t, ts', rfl, q⟩ := hi.gs.head
      rw [lowerOf_fun, upperOf_fun] at q
      exact boundLits_told q (e.told t rfl)
    · have key : ∀ c : CC, W.level ≤ c.level → c.level ≠ 0 := by
        intro c hc
        have := level_pos hi.wi h1
        omega
      cases op <;> simp only [opEnv, Option.some.injEq, reduceCtorEq] at hcc <;> subst hcc
      case simple => have := hf.1; omega
      case propagate => exact key _ hf.1
      all_goals exact key _ hf

/-- **C57** (partial: see `Spec.admits` and `Spec.FedAgrees` for the cases that are left out because the code is wrong for them.) Let an
assignment be given that is not excluded by the constraints (including disjoint constraints), domains and objective bounds that are added.
Then, nothing that is derived over any sequence of calls in which the literals passed to `propagate` are true, with any interleaving of
decisions, propagation, and undoing, excludes it: all clauses posted hold, facts that are pending hold, and bounds on the top level admit
it. -/
theorem C57_fed_partial (hn : 1 < n) (h : AdmFed β σ ops (World.init n) [Told.none] W ts) (hr : Respects β σ W.log) :
    AllHold β W.log ∧ SEv.clause [] ∉ W.log ∧ Good β σ W ∧
      (W.book.levels.length = 1 → ∀ v, v < W.vars.length → lowerOf W v ≤ σ v ∧ σ v ≤ upperOf W v) := by
  have := admFed_admRun h (gi_init hn)
  obtain ⟨h1, h2⟩ := C57_run_sound_partial hn this hr
  obtain ⟨h3, h4⟩ := C57_top_partial hn this hr
  exact ⟨h1, h3, h2, h4⟩

/-! ### A concrete case -/

/-- Variables `x` in `[1, 3]` and `y` in `[1, 9]`, which are starts of intervals of sizes 3 and 2 that have to be disjoint. On level 1, `x ≤ 1`
is decided; checking adds the clause that `y > 3` in this case, and the decision is undone. -/
def chose : CC := assigns 1 [(5, true), (6, false)]
def fed1 := after (.addVar 1 3) (World.init 6)
def fed2 := after (.addVar 1 9) fed1
def fed3 := after (.addConstraint (.disjoint 5 [(3, 0), (2, 1)])) fed2
def fed4 := after (.check idle false 9) fed3
def fed5 := after (.literal idle 0 1) fed4
def fed6 := after (.propagate chose [-6]) fed5
def fed7 := after (.check chose false 9) fed6
def fed8 := after .undo fed7

/-- The values `x = 1` and `y = 5`. -/
def choiceB (a : Nat) : Bool := decide (a = 1 ∨ a = 5 ∨ a = 7)
def choiceV (v : Nat) : Int := if v = 0 then 1 else 5

/-- The hypotheses of `C57_fed_partial` are met, and a clause is added by the disjoint constraint. -/
example : AdmFed choiceB choiceV [.addVar 1 3, .addVar 1 9, .addConstraint (.disjoint 5 [(3, 0), (2, 1)]), .check idle false 9, .literal idle 0 1,
      .propagate chose [-6], .check chose false 9, .undo] (World.init 6) [Told.none] fed8 [Told.none] ∧
    Respects choiceB choiceV fed8.log ∧ SEv.clause [-5, 6, -1, 7] ∈ fed8.log ∧ fed8.book.levels.length = 1 := by
  refine ⟨?_, respects_of (by decide +kernel), by decide +kernel, by decide +kernel⟩
  have agree : ∀ {cc : CC} {W : World} {ts : List Told}, EnvSound cc choiceB → EnvMono cc →
      W.book.cs.all (fun c => litB choiceB c.con.lit) = true → (∀ t, ts.head? = some t → ∀ l, t.tried l → cc.isTrue W.log l = true) →
      FedAgrees cc choiceB W ts := by
    intro cc W ts h1 h2 h3 h4
    refine ⟨h1, h2, fun c hc l hl log _ _ => ?_, h4⟩
    have := litB_iff.mp (List.all_eq_true.mp h3 c hc)
    rcases hl with ⟨es, hl⟩ | ⟨es, hl⟩ <;> rw [hl] at this <;> exact this
  have none : ∀ {cc : CC} {W : World} (t : Told), [Told.none].head? = some t → ∀ l, t.tried l → cc.isTrue W.log l = true := by
    intro cc W t ht l hl
    injection ht with ht
    subst ht
    exact hl.elim
  have i1 : EnvSound idle choiceB := idle_sound (by decide)
  have i2 : EnvSound chose choiceB := assigns_sound (by decide) (by decide)
  refine .cons (Op.preB_iff.mp (by decide +kernel)) trivial (fun cc h => by cases h) (by constructor <;> decide +kernel) (after_eq (r := true) (by decide +kernel)) ?_
  refine .cons (Op.preB_iff.mp (by decide +kernel)) trivial (fun cc h => by cases h) (by constructor <;> decide +kernel) (after_eq (r := true) (by decide +kernel)) ?_
  refine .cons (Op.preB_iff.mp (by decide +kernel)) trivial (fun cc h => by cases h) ⟨by decide, by decide, fun _ => ?_⟩ (after_eq (r := true) (by decide +kernel)) ?_
  · refine List.pairwise_pair.mpr ?_
    rintro ⟨x, h1, h2⟩
    simp [choiceV] at h1 h2
    omega
  refine .cons (Op.preB_iff.mp (by decide +kernel)) ?_ ?_ trivial (after_eq (r := true) (by decide +kernel)) ?_
  · show _ ≤ _
    decide +kernel
  · rintro cc ⟨⟩
    exact agree i1 idle_mono (by decide +kernel) none
  refine .cons (Op.preB_iff.mp (by decide +kernel)) ?_ ?_ trivial (after_eq (r := true) (by decide +kernel)) ?_
  · show _ ≤ _
    decide +kernel
  · rintro cc ⟨⟩
    exact agree i1 idle_mono (by decide +kernel) none
  refine .cons (Op.preB_iff.mp (by decide +kernel)) ?_ ?_ (by intro l hl; rw [List.mem_singleton] at hl; subst hl; decide) (after_eq (r := true) (by decide +kernel)) ?_
  · show _ ≤ _ ∧ _
    decide +kernel
  · rintro cc ⟨⟩
    exact agree i2 (fun _ _ _ _ h => h) (by decide +kernel) none
  have e1 : toldAfter (.propagate chose [-6]) fed5 fed6 true [Told.none] = [Told.none.add true [-6], Told.none] := by
    have : fed5.book.levels.length < fed6.book.levels.length := by decide +kernel
    simp only [toldAfter, if_pos this]
  show AdmFed _ _ _ fed6 (toldAfter (.propagate chose [-6]) fed5 fed6 true [Told.none]) _ _
  rw [e1]
  refine .cons (Op.preB_iff.mp (by decide +kernel)) ?_ ?_ trivial (after_eq (r := true) (by decide +kernel)) ?_
  · show _ ≤ _
    decide +kernel
  · rintro cc ⟨⟩
    refine agree i2 (fun _ _ _ _ h => h) (by decide +kernel) ?_
    intro t ht l hl
    injection ht with ht
    subst ht
    rcases hl with hl | hl
    · exact hl.elim
    · rw [List.mem_singleton] at hl
      subst hl
      decide +kernel
  refine .cons (Op.preB_iff.mp (by decide +kernel)) trivial (fun cc h => by cases h) trivial (after_eq (r := true) (by decide +kernel)) ?_
  exact .nil _ _

end Clingcon.Props
