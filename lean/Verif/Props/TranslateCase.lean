import Verif.Props.TranslateKept

/-! A program whose constraint is translated: the hypotheses of the theorems for C74 are met. -/
namespace Clingcon.Props
open Clingcon Clingcon.Spec

/-- The constraint `x + y ≤ 1` of the program `ansProgram` is translated to a weight constraint, and then all literals become true except for `5`. -/
def tw7 : World := ((solverTranslate idle toWeights 100 100 [.old 0] ok7).toOption.map Prod.snd).getD ok7
def tw8 := after (.propagate okAll [2, 4, -5]) tw7
def tw9 := after (.check okAll false 9) tw8

def twSetup : List Op := [.addVar 0 1, .addVar 0 3, .simple idle 2 1 0 0 true, .dom idle 3 1 [(1, 2)], .simple idle 1 1 1 2 false,
  .addConstraint (.sum 3 1 [(1, 0), (1, 1)]), .check idle false 9]
def twSearch : List Op := [.propagate okAll [2, 4, -5], .check okAll false 9]

theorem tw_states : states ok7 = [(.sum 3 1 [(1, 0), (1, 1)], true)] := by decide +kernel

theorem tw_translated : ∃ kept, solverTranslate idle toWeights 100 100 [.old 0] ok7 = .ok ((true, kept), tw7) := by
  have h : (solverTranslate idle toWeights 100 100 [.old 0] ok7).toOption.map (fun p => p.1.1) = some true := by decide +kernel
  unfold tw7
  cases hx : solverTranslate idle toWeights 100 100 [.old 0] ok7 with
  | error e => rw [hx] at h; cases h
  | ok p =>
    obtain ⟨⟨b, kept⟩, W'⟩ := p
    rw [hx] at h
    simp only [Except.toOption, Option.map_some, Option.some.injEq] at h
    subst h
    exact ⟨kept, rfl⟩

theorem tw_ready : Translatable ok7 ∧ Known ok7 ∧ NoFact ok7 ∧ InQueue ok7 [.old 0] ∧ ∀ p ∈ states ok7, Terms p.1 := by
  have hd : ∀ c ∈ ok7.book.cs, c.dirty = [] := by decide +kernel
  have hone : ∀ {n : Nat} {c : Constr} {b : Bool}, (states ok7)[n]? = some (c, b) → n = 0 ∧ c = .sum 3 1 [(1, 0), (1, 1)] := by
    intro n c b h
    rw [tw_states] at h
    match n, h with
    | 0, h => injection h with h; injection h with h _; exact ⟨rfl, h.symm⟩
    | (n + 1), h => cases h
  have e : ok7.nextLit = 6 := by decide +kernel
  have elog : ok7.log.all (fun x => (evLits x).all (fun l => decide (-6 < l) && decide (l < 6))) = true := by decide +kernel
  have eord : ok7.log.all (fun e => match e with | .order _ v _ => decide (v < ok7.vars.length) | _ => true) = true := by decide +kernel
  have efm : ok7.factmap = [] := by decide +kernel
  have hw : ok7.vars.map (·.with) = [[(0, 2)], [(0, -4), (1, -5)]] := by decide +kernel
  refine ⟨⟨by decide +kernel, by decide +kernel, by decide +kernel, fun n c hc ha => ⟨?_, fun _ _ _ => hd c (List.mem_of_getElem? hc)⟩⟩,
    ⟨fun x hx l hl => ?_, fun l v k hm => ?_, fun f v k p hm => (by rw [efm] at hm; cases hm), fun n c hc => ?_⟩, fun v vs k l hv hm => ?_,
    ⟨by decide, fun n => ⟨fun h => ?_, fun ⟨c, h⟩ => ?_⟩, fun t ht => ?_⟩, fun p hp => ?_⟩
  · rw [(hone (states_get.mpr ⟨c, hc, ha, rfl⟩)).2]; exact ⟨by decide, by decide⟩
  · have := List.all_eq_true.mp (List.all_eq_true.mp elog x hx) l hl
    rw [e, abs_lt]
    simpa using this
  · simpa using List.all_eq_true.mp eord _ hm
  · rw [(hone hc).2, e]; decide
  · have : vs.with ∈ ok7.vars.map (·.with) := List.mem_map_of_mem (List.mem_of_getElem? hv)
    rw [hw] at this
    simp only [List.mem_cons, List.not_mem_nil, or_false] at this
    rcases this with this | this <;> rw [this] at hm <;> simp at hm
    · rw [hm.2]; decide
    · rcases hm with hm | hm <;> rw [hm.2] <;> decide
  · simp only [List.mem_cons, TCon.old.injEq, List.not_mem_nil, or_false] at h
    subst h
    unfold Alive
    rw [tw_states]
    exact ⟨_, rfl⟩
  · rw [(hone h).1]; simp
  · simp only [List.mem_cons, List.not_mem_nil, or_false] at ht
    exact ⟨0, ht⟩
  · rw [tw_states, List.mem_singleton] at hp
    subst hp
    intro lit es e; cases e

theorem tw_noRemoval : NoRemoval twSetup ∧ NoRemoval twSearch := by
  constructor
  · intro op hop
    simp only [twSetup, List.mem_cons, List.not_mem_nil, or_false] at hop
    rcases hop with rfl | rfl | rfl | rfl | rfl | rfl | rfl <;> exact ⟨fun n e => (by cases e), fun n e => (by cases e)⟩
  · intro op hop
    simp only [twSearch, List.mem_cons, List.not_mem_nil, or_false] at hop
    rcases hop with rfl | rfl <;> exact ⟨fun n e => (by cases e), fun n e => (by cases e)⟩

theorem tw_phases : Phases okβ idle toWeights 4 twSetup ok7 [Told.none] tw7 twSearch tw9 [okTold, Told.none] := by
  obtain ⟨r1, -, -, r4, -⟩ := tw_ready
  obtain ⟨kept, hx⟩ := tw_translated
  refine ⟨ok_setup (.nil _ _), r1, ⟨100, 100, _, kept, r4, hx⟩, by decide +kernel, ?_, tw_noRemoval⟩
  have s1 : ∀ cc, some okAll = some cc → EnvSound cc okβ := fun cc e => by cases e; exact assigns_sound (by decide) (by decide)
  refine .cons (Op.preB_iff.mp (by decide +kernel)) ?_ s1 trivial (after_eq (r := true) (by decide +kernel)) ?_
  · show _ ≤ _ ∧ _
    decide +kernel
  have e1 : toldAfter (.propagate okAll [2, 4, -5]) tw7 tw8 true [Told.none] = [okTold, Told.none] := by
    have : tw7.book.levels.length < tw8.book.levels.length := by decide +kernel
    simp only [toldAfter, if_pos this, okTold]
  show OkFed _ _ tw8 (toldAfter (.propagate okAll [2, 4, -5]) tw7 tw8 true [Told.none]) _ _
  rw [e1]
  refine .cons (Op.preB_iff.mp (by decide +kernel)) ?_ s1 trivial (after_eq (r := true) (by decide +kernel)) (.nil _ _)
  show _ ≤ _
  decide +kernel

theorem tw_passed : Passed okβ tw9 okTold := by
  have hv : tw9.vars.map (·.with) = [[(0, 2)], [(0, -4), (1, -5)]] := by decide +kernel
  rintro v k l ⟨vs, h1, h2⟩
  have : vs.with ∈ tw9.vars.map (·.with) := List.mem_map_of_mem (List.mem_of_getElem? h1)
  rw [hv] at this
  simp only [List.mem_cons, List.not_mem_nil, or_false] at this
  rcases this with this | this
  all_goals
    rw [this] at h2
    simp only [List.mem_cons, Prod.mk.injEq, List.not_mem_nil, or_false] at h2
  · obtain ⟨rfl, rfl⟩ := h2
    exact ⟨fun _ => Or.inr ⟨rfl, by simp⟩, fun h => by simp [litTrue, okβ] at h⟩
  · rcases h2 with ⟨rfl, rfl⟩ | ⟨rfl, rfl⟩
    · exact ⟨fun h => by simp [litTrue, okβ] at h, fun _ => Or.inr ⟨rfl, by simp⟩⟩
    · exact ⟨fun _ => Or.inr ⟨rfl, by simp⟩, fun h => by simp [litTrue, okβ] at h⟩

theorem tw_full : ∃ W', solverCheckFull okAll true tw9 = .ok ((), W') ∧ W'.log = tw9.log := by
  have hlog : (solverCheckFull okAll true tw9).toOption.map (fun p => p.2.log) = some tw9.log := by decide +kernel
  cases hx : solverCheckFull okAll true tw9 with
  | error e => rw [hx] at hlog; cases hlog
  | ok p =>
    rw [hx] at hlog
    simp only [Except.toOption, Option.map_some, Option.some.injEq] at hlog
    exact ⟨p.2, rfl, hlog⟩

theorem tw_range : InRange tw9 := by
  have e : boundsOf tw9 = [(0, 0), (1, 1)] := by decide +kernel
  intro v
  unfold lowerOf upperOf
  rw [e]
  match v with
  | 0 => exact ⟨by decide, by decide⟩
  | 1 => exact ⟨by decide, by decide⟩
  | _ + 2 => constructor <;> (simp only [List.getElem?_cons_succ, List.getElem?_nil, Option.elim_none]; decide)

theorem tw_unused : ∀ k ∈ tw9.book.cs, k.alive = false := by decide +kernel

theorem tw_facts : tw9.factmap = [] ∧ AllHold okβ tw9.log := ⟨by decide +kernel, allHold_of (by decide +kernel)⟩

/-- The hypotheses of `C74_solution` and `C74_answers_partial` are met (see also `ans_loaded`): the constraint is no longer in use at the end, and the values `x = 0` and `y = 1` reported are a
solution of it. -/
example : tw9.getValue 0 = some 0 ∧ tw9.getValue 1 = some 1 ∧ (∀ e ∈ ansPosts, passedOn twSetup e) ∧ Solution okβ (lowerOf tw9) ok7 := by
  obtain ⟨W', hx, hlog⟩ := tw_full
  have hs := C74_solution (by decide) (idle_sound (by decide)) rfl (fun l => List.Perm.refl l) tw_phases tw_facts.1 tw_passed tw_facts.2 tw_range
    (fun k hk h => by rw [tw_unused k hk] at h; cases h) hx hlog
  refine ⟨by decide +kernel, by decide +kernel, ?_, hs.2.2.2.1⟩
  intro e he
  simp only [ansPosts, List.mem_cons, List.not_mem_nil, or_false] at he
  rcases he with rfl | rfl | rfl | rfl
  · exact ⟨idle, by simp [twSetup]⟩
  · exact ⟨idle, by simp [twSetup]⟩
  · exact ⟨idle, by simp [twSetup]⟩
  · show Op.addConstraint _ ∈ twSetup
    simp [twSetup]

/-- The hypotheses of `C74_kept_partial` and of the conclusion of `C74_program_partial` are met. -/
example : ∃ (β' : Nat → Bool) (σ' : Nat → Int), agreeBelow 6 okβ β' ∧ σ' 0 = 0 ∧ σ' 1 = 1 ∧ KeptBy β' σ' tw7 [Told.none] := by
  obtain ⟨r1, r2, r3, r4, r5⟩ := tw_ready
  obtain ⟨kept, hx⟩ := tw_translated
  have hag : Agree ansSyms ansVals ansEnd := by
    intro q hq
    simp only [ansEnd, List.mem_cons, List.not_mem_nil, or_false] at hq
    rcases hq with rfl | rfl <;> decide
  obtain ⟨hpr, -⟩ := Loaded.captures noPow (by intro x y z h; cases h) exEnv plainEnv (fun β => β 1 = true) ansProgram ansStart ansEnd ⟨4, []⟩ ⟨4, ansPosts⟩ ansEvs true true ans_loaded
      (σ := ansSyms) (τ := ansVals) (ans_oracle _) (ans_poracle _) hag
  have hh : ∀ e ∈ ansPosts, pholds okβ ansVals e := by
    intro e he
    simp only [ansPosts, List.mem_cons, List.not_mem_nil, or_false] at he
    rcases he with rfl | rfl | rfl | rfl
    · show (_ ↔ _)
      simp [litTrue, okβ, ansVals]
    · exact fun _ => ⟨(1, 2), by simp, by decide, by decide⟩
    · exact fun _ => by decide
    · exact fun _ => by show wsum _ _ ≤ _; decide
  have hen : ok7.nextLit = 6 := by decide +kernel
  have hlen : ok7.vars.length = 2 := by decide +kernel
  obtain ⟨β', σ', a1, a2, a3⟩ := C74_kept_partial (cc := idle) (by decide) (postFed_admFed hpr hh (post_setup (.nil _ _))) (respects_of (by decide +kernel)) tw_noRemoval.1
    (fun β' hb => idle_sound (by rw [← hb 1 (by rw [hen]; decide)]; decide)) rfl (fun l => List.Perm.refl l) r1 r2 r3 r5 r4 hx (by decide +kernel)
  exact ⟨β', σ', by rw [hen] at a1; exact a1, a2 0 (by rw [hlen]; decide), a2 1 (by rw [hlen]; decide), a3⟩

end Clingcon.Props
