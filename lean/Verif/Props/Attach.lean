import Verif.Proof.Fresh
import Verif.Spec.IntervalSet

/-! Properties C15 and C16: constraints over one variable and domains. -/
namespace Clingcon.Props
open Spec

variable {cc : CC} {β : Nat → Bool} {σ : Nat → Int} {W W' : World} {clit co rhs : Int} {var : Nat} {strict b : Bool}

/-- **C15** The literal implies (is equivalent to) the inequality in every assignment that satisfies what has
been posted, if adding the constraint succeeded: `β` is a truth assignment and `σ` an assignment of integers
such that every order literal introduced so far is true exactly if the variable is at most the value. -/
theorem C15_enforced (he : EnvSound cc β) (h0 : cc.level = 0) (hc : clit ≠ 0) (hco : co ≠ 0) (hi : Inv β σ W)
    (h : addSimple cc clit co var rhs strict W = .ok (true, W')) (hr : Respects β σ W'.log) (hp : AllHold β W'.log)
    (hf : FactsHold σ W') : attached β clit strict (co * σ var ≤ rhs) :=
  ((tr_addSimple (m := true) he h0 hc hco (fun h => by cases h) W _ W' h).2 ⟨hi, rfl⟩ ⟨hr, fun _ => ⟨hp, hf⟩⟩).2 rfl

/-- **C15** Adding the constraint excludes no assignment that satisfies it: all clauses hold, and the state
stays faithful. -/
theorem C15_exact (he : EnvSound cc β) (h0 : cc.level = 0) (hc : clit ≠ 0) (hco : co ≠ 0) (hi : Inv β σ W)
    (h : addSimple cc clit co var rhs strict W = .ok (b, W')) (hs : attached β clit strict (co * σ var ≤ rhs))
    (hr : Respects β σ W'.log) : AllHold β W'.log ∧ FactsHold σ W' ∧ Inv β σ W' := by
  have := ((tr_addSimple (m := false) he h0 hc hco (fun _ => hs) W _ W' h).2 ⟨hi, rfl⟩ ⟨hr, fun h => by cases h⟩).1.1
  exact ⟨this.good.posted, this.good.facts, this⟩

/-- **C15** New order literals can always be given their meaning without changing the truth value of any
literal that existed before, for every assignment that satisfies the constraint. -/
theorem C15_extends (hc : clit ≠ 0) (hco : co ≠ 0) (hn : 0 < W.nextLit) (hl : |clit| < W.nextLit)
    (hlog : ∀ l v k, SEv.order l v k ∈ W.log → |l| < W.nextLit) (hw : Respects β σ W.log)
    (h : addSimple cc clit co var rhs strict W = .ok (b, W')) (hs : attached β clit strict (co * σ var ≤ rhs)) :
    ∃ β', agreeBelow W.nextLit β β' ∧ Respects β' σ W'.log := by
  obtain ⟨-, new, e, -, hx⟩ := (fresh_addSimple (σ := σ) (n0 := W.nextLit) (P := fun β => attached β clit strict (co * σ var ≤ rhs))
    (fun β β' ha hP => by unfold attached at *; rw [← litTrue_congr ha hl]; exact hP) (cc := cc) hl hc hco (fun _ h => h)).pres W b W' h
    hn le_rfl
  obtain ⟨β', h1, h2⟩ := hx β hs
  refine ⟨β', h1, fun l v k hm => ?_⟩
  rw [e, List.mem_append] at hm
  rcases hm with hm | hm
  · exact h2 l v k hm
  · rw [← litTrue_congr h1 (hlog _ _ _ hm)]; exact hw _ _ _ hm

/-- A Boolean solver that accepts everything and only assigns the true literal. -/
def idle : CC where
  conf := {}
  atom := fun _ a => if a = 1 then some true else none
  fix := fun _ a => a == 1
  lev := fun _ _ => 0
  level := 0
  accept := fun _ => true

theorem idle_value {log : List SEv} {l : Int} {t : Bool} (h : idle.value log l = some t) : l.natAbs = 1 ∧ (t = true ↔ l > 0) := by
  unfold CC.value idle at h
  dsimp only at h
  by_cases h1 : l.natAbs = 1
  · by_cases h2 : l > 0 <;> simp_all
  · by_cases h2 : l > 0 <;> simp_all

theorem idle_sound {β : Nat → Bool} (h : β 1 = true) : EnvSound idle β := by
  refine ⟨by simp [litTrue, h], fun log l _ ht _ => ?_, fun log l _ ht _ => ?_⟩
  all_goals
    simp only [CC.isTrue, CC.isFalse, beq_iff_eq] at ht
    obtain ⟨h1, h2⟩ := idle_value ht
    simp_all [litTrue]

/-- Two variables with domain `[0, 10]`. -/
def start : World := { vars := [{ lower := 0, upper := 10 }, { lower := 0, upper := 10 }], litmap := List.replicate 8 {}, nextLit := 5 }

theorem start_inv {β : Nat → Bool} {σ : Nat → Int} (h : ∀ v, 0 ≤ σ v ∧ σ v ≤ 10) : Inv β σ start := by
  have hv : ∀ (v : Nat) vs, start.vars[v]? = some vs → vs = { lower := 0, upper := 10 } := by
    intro v vs hv
    match v, hv with
    | 0, hv => injection hv with hv; exact hv.symm
    | 1, hv => injection hv with hv; exact hv.symm
    | (v + 2), hv => cases hv
  refine ⟨⟨by decide, fun v vs hvs k l hm => ?_, fun v vs hvs => ?_, fun i e hie hp => ?_, fun _ _ _ _ hm => ?_, fun _ hm => ?_⟩, fun v vs hvs => ?_⟩
  · rw [hv _ _ hvs] at hm; simp [VarState.with] at hm
  · rw [hv _ _ hvs]; exact h v
  · have : e = {} := (List.mem_replicate.mp (List.mem_of_getElem? hie)).2
    rw [this] at hp; exact absurd rfl hp
  · cases hm
  · cases hm
  · rw [hv _ _ hvs]; exact ⟨List.Pairwise.nil, by simp⟩

/-- `2x ≤ 7` is attached strictly by using the literal as order literal for `x ≤ 3`. -/
example : ∃ W', addSimple idle 3 2 0 7 true start = .ok (true, W') ∧ W'.log.head? = some (.order 3 0 3) ∧
    Inv (fun k => k == 1) (fun _ => 4) start ∧ EnvSound idle (fun k => k == 1) ∧
    attached (fun k => k == 1) 3 true (2 * ((fun _ => 4 : Nat → Int) 0) ≤ 7) :=
  ⟨_, rfl, rfl, start_inv (by simp), idle_sound rfl, by simp [attached, litTrue]⟩

/-! ### Domains -/

variable {lit : Int} {dom : List (Int × Int)}

theorem canonical_sorted (h : Canonical dom) : SortedDom dom := ⟨h.1, h.2.imp (fun h => by omega)⟩

theorem covered_iff (h : Canonical dom) (hne : dom ≠ []) {s : Int} :
    (LowerOK s none dom ∧ UpperOK s none dom.reverse) ↔ s ∈ covered dom :=
  dom_iff (canonical_sorted h) hne

/-- **C16** A true literal restricts the variable to a non-empty domain in every assignment that satisfies
what has been posted. -/
theorem C16_enforced_partial (he : EnvSound cc β) (h0 : cc.level = 0) (hl : lit ≠ 0) (hd : Canonical dom) (hne : dom ≠ []) (hi : Inv β σ W)
    (h : addDom cc lit var dom W = .ok (true, W')) (hr : Respects β σ W'.log) (hp : AllHold β W'.log)
    (hf : FactsHold σ W') (ht : litTrue β lit) : σ var ∈ covered dom :=
  (covered_iff hd hne).mp
    (((tr_addDom (m := true) he h0 hl (fun h => by cases h) W _ W' h).2 ⟨hi, rfl⟩ ⟨hr, fun _ => ⟨hp, hf⟩⟩).2 rfl ht)

/-- **C16** Adding a domain excludes no assignment in which the literal is false or the value is in the domain. -/
theorem C16_exact (he : EnvSound cc β) (h0 : cc.level = 0) (hl : lit ≠ 0) (hd : Canonical dom) (hi : Inv β σ W)
    (h : addDom cc lit var dom W = .ok (b, W')) (hs : litTrue β lit → σ var ∈ covered dom) (hr : Respects β σ W'.log) :
    AllHold β W'.log ∧ FactsHold σ W' ∧ Inv β σ W' := by
  have := ((tr_addDom (m := false) he h0 hl (fun _ ht => by
    by_cases hne : dom = []
    · subst hne; exact ⟨trivial, trivial⟩
    · exact (covered_iff hd hne).mpr (hs ht)) W _ W' h).2 ⟨hi, rfl⟩ ⟨hr, fun h => by cases h⟩).1.1
  exact ⟨this.good.posted, this.good.facts, this⟩

/-- **C16** The new order literals can be given their meaning for every assignment. -/
theorem C16_extends (hn : 0 < W.nextLit) (hlog : ∀ l v k, SEv.order l v k ∈ W.log → |l| < W.nextLit) (hw : Respects β σ W.log)
    (h : addDom cc lit var dom W = .ok (b, W')) : ∃ β', agreeBelow W.nextLit β β' ∧ Respects β' σ W'.log := by
  obtain ⟨-, new, e, -, hx⟩ := (Closed.addDom (fresh_closed (σ := σ) (n0 := W.nextLit) (P := fun _ => True) (fun _ _ _ _ => trivial))
    (cc := cc)).pres W b W' h hn le_rfl
  obtain ⟨β', h1, h2⟩ := hx β trivial
  refine ⟨β', h1, fun l v k hm => ?_⟩
  rw [e, List.mem_append] at hm
  rcases hm with hm | hm
  · exact h2 l v k hm
  · rw [← litTrue_congr h1 (hlog _ _ _ hm)]; exact hw _ _ _ hm

/-- **C16** fails for empty domains: nothing is posted, so that the literal may be true. -/
theorem C16_empty_negation : ¬ ∀ (cc : CC) (β : Nat → Bool) (σ : Nat → Int) (W W' : World) (lit : Int) (var : Nat) (dom : List (Int × Int)),
    EnvSound cc β → cc.level = 0 → lit ≠ 0 → Canonical dom → Inv β σ W → addDom cc lit var dom W = .ok (true, W') →
    Respects β σ W'.log → AllHold β W'.log → FactsHold σ W' → litTrue β lit → σ var ∈ covered dom := by
  intro h
  have := h idle (fun _ => true) (fun _ => 4) start start 3 0 [] (idle_sound rfl) rfl (by decide) ⟨by simp, List.Pairwise.nil⟩
    (start_inv (by simp)) rfl (fun _ _ _ hm => by cases hm) (fun _ hm => by cases hm) (fun _ _ _ _ hm => by cases hm) (by simp [litTrue])
  simp [covered] at this

/-- `x ∈ [1,3) ∪ [5,8)`: four clauses are posted, two of which use two order literals. -/
example : (addDom idle 3 0 [(1, 3), (5, 8)] start).toOption.map (fun p => (p.1, p.2.log.filter (fun e => match e with
      | .watch _ => false | .lit _ => false | _ => true))) =
    some (true, [.clause [-3, 7, -6], .clause [-3, -1, -8], .order (-8) 0 7, .clause [-3, -6, 7], .order (-7) 0 4, .order (-6) 0 2,
      .clause [-3, -1, 5], .order (-5) 0 0]) := by decide +kernel
example : Inv (fun k => k == 1) (fun _ => 5) start ∧ Canonical [(1, 3), (5, 8)] ∧ (5 : Int) ∈ covered [(1, 3), (5, 8)] := by
  refine ⟨start_inv (by simp), ?_, ?_⟩
  · constructor <;> simp
  · simp [covered]

end Clingcon.Props
