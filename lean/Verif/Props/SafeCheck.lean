import Verif.Proof.SafeCheck
import Verif.Props.Safe
import Verif.Props.Rounds

/-! Property C68: `check` returns for linear constraints and objectives. -/
namespace Clingcon.Props
open Clingcon Clingcon.Spec

variable {W : World}

/-- C68: in every state reached by calls, as long as there has been no conflict on the top level, `check` returns for linear constraints
and objectives, whether the states of constraints are checked or not: no assertion fails, no check of a state fails, no access is out
of range. Above the top level, the current bounds are justified by literals, order literals for values outside of the bounds are
assigned, there are no pending facts, and the Boolean solver does unit propagation when clauses are added. -/
theorem C68_check_returns {n : Int} {ops : List Op} {d : Bool} {cc : CC} {checkState : Bool} {rounds : Nat} (hn : 1 < n)
    (h : Proceed ops (World.init n) W) (hq : ProperRun false ops (World.init n) d W) (hr : Responsive cc) (hlin : LinearOnly W)
    (hl : cc.level = 0 → W.level = 0) (hb : cc.level ≠ 0 → BoundLits cc W ∧ OutLits cc W ∧ NewLits cc W ∧ W.factmap = [])
    (hs : domainSize W + 1 < rounds) : ∃ r W', (Op.check cc checkState rounds).exec W = .ok (r, W') := by
  have hw := run_wi h.run (init_wi n)
  exact check_returns hr (h.fc (FC.init hn)) (AllNested.run h.run (fun vs hv => (List.not_mem_nil hv).elim)) hw
    (q_run hq (init_wi n) q_init).weaken hlin hl hb hs

/-! ### A Boolean solver with unit propagation -/

/-- The truth value of a literal. -/
def litVal (s : Nat → Option Bool) (l : Int) : Option Bool := if l > 0 then s l.natAbs else (s l.natAbs).map not

/-- The value of an atom after a clause has been added: if all literals but one are false, then that one becomes true. -/
def unitStep (s : Nat → Option Bool) (c : List Int) (a : Nat) : Option Bool :=
  match s a with
  | some t => some t
  | none => (c.find? (fun l => l.natAbs == a && c.all (fun m => m == l || litVal s m == some false))).map (fun l => decide (l > 0))

/-- The atom is known to the Boolean solver. -/
def knownLit (n : Nat) (log : List SEv) (a : Nat) : Bool := decide (a < n) || log.contains (.lit a)

/-- The assignment after the given calls, with decisions and unit propagation. -/
def unitAtom (n : Nat) (base : List (Nat × Bool)) : List SEv → Nat → Option Bool
  | [], a => if a = 1 then some true else if a < n then (base.find? (fun p => p.1 == a)).map (·.2) else none
  | .clause c :: log, a => if c.all (fun l => knownLit n log l.natAbs) then unitStep (unitAtom n base log) c a else unitAtom n base log a
  | .volatile c :: log, a => if c.all (fun l => knownLit n log l.natAbs) then unitStep (unitAtom n base log) c a else unitAtom n base log a
  | _ :: log, a => unitAtom n base log a

/-- The clause has known literals, one of which is not false. -/
def sensible (n : Nat) (log : List SEv) (s : Nat → Option Bool) (c : List Int) : Bool :=
  c.all (fun l => knownLit n log l.natAbs) && c.any (fun l => litVal s l != some false)

/-- A Boolean solver that does unit propagation when a clause is added. -/
def unitEnv (level n : Nat) (base : List (Nat × Bool)) : CC where
  conf := {}
  atom := unitAtom n base
  fix := fun _ a => a == 1
  lev := fun _ a => if a = 1 then 0 else 1
  level := level
  accept := fun log => match log with
    | .clause c :: old => sensible n old (unitAtom n base log) c
    | .volatile c :: old => sensible n old (unitAtom n base log) c
    | _ => true

theorem unitStep_mono {s : Nat → Option Bool} {c : List Int} {a : Nat} {t : Bool} (h : s a = some t) : unitStep s c a = some t := by
  unfold unitStep
  rw [h]

theorem litVal_unit {s : Nat → Option Bool} {c : List Int} {l : Int} (hl : l ∈ c) (hs : c.any (fun l => litVal (unitStep s c) l != some false) = true)
    (hf : ∀ m ∈ c, m ≠ l → litVal (unitStep s c) m = some false) : litVal (unitStep s c) l = some true := by
  have mono : ∀ m t, litVal s m = some t → litVal (unitStep s c) m = some t := by
    intro m t h
    unfold litVal at *
    split_ifs at * with hp
    · exact unitStep_mono h
    · cases hx : s m.natAbs with
      | none => rw [hx] at h; cases h
      | some u => rw [hx] at h; rw [unitStep_mono hx]; exact h
  have hnf : litVal (unitStep s c) l ≠ some false := by
    obtain ⟨m, hm, hv⟩ := List.any_eq_true.mp hs
    intro e
    by_cases hml : m = l
    · subst hml; rw [e] at hv; simp at hv
    · rw [hf m hm hml] at hv; simp at hv
  have found : ∀ (a : Nat) (m : Int), s a = none → c.find? (fun l => l.natAbs == a && c.all (fun m => m == l || litVal s m == some false)) = some m →
      m ∈ c ∧ m.natAbs = a ∧ litVal (unitStep s c) m = some true := by
    intro a m ha hm
    have h1 := List.mem_of_find?_eq_some hm
    have h2 := List.find?_some hm
    rw [Bool.and_eq_true] at h2
    have h3 : m.natAbs = a := by simpa using h2.1
    refine ⟨h1, h3, ?_⟩
    have : unitStep s c m.natAbs = some (decide (m > 0)) := by
      unfold unitStep
      rw [h3, ha]
      dsimp only
      rw [hm]
      rfl
    unfold litVal
    rw [this]
    split_ifs with hp <;> simp [hp]
  cases hv : litVal s l with
  | some t =>
    cases t with
    | true => exact mono l true hv
    | false => exact absurd (mono l false hv) hnf
  | none =>
    have hn : s l.natAbs = none := by
      unfold litVal at hv
      split_ifs at hv with hp
      · exact hv
      · simpa using hv
    by_cases hall : ∀ m ∈ c, m ≠ l → litVal s m = some false
    · have : (c.find? (fun m => m.natAbs == l.natAbs && c.all (fun k => k == m || litVal s k == some false))).isSome = true := by
        rw [List.find?_isSome]
        refine ⟨l, hl, ?_⟩
        rw [Bool.and_eq_true]
        refine ⟨by simp, List.all_eq_true.mpr (fun k hk => ?_)⟩
        by_cases hkl : k = l
        · simp [hkl]
        · simp [hall k hk hkl]
      obtain ⟨m, hm⟩ := Option.isSome_iff_exists.mp this
      obtain ⟨h1, h2, h3⟩ := found _ m hn hm
      by_cases hml : m = l
      · rw [← hml]; exact h3
      · have := hf m h1 hml
        rw [h3] at this; cases this
    · push Not at hall
      obtain ⟨m, hm, hml, hmf⟩ := hall
      have hafter := hf m hm hml
      have hmn : s m.natAbs = none := by
        cases hx : s m.natAbs with
        | none => rfl
        | some t =>
          exfalso
          have : ∃ u, litVal s m = some u := by
            unfold litVal
            rw [hx]
            split_ifs
            · exact ⟨_, rfl⟩
            · exact ⟨_, rfl⟩
          obtain ⟨u, hu⟩ := this
          have := mono m u hu
          rw [this] at hafter
          injection hafter with hafter
          subst hafter
          exact hmf hu
      cases hx : c.find? (fun k => k.natAbs == m.natAbs && c.all (fun j => j == k || litVal s j == some false)) with
      | none =>
        exfalso
        have : unitStep s c m.natAbs = none := by
          unfold unitStep
          rw [hmn]
          dsimp only
          rw [hx]
          rfl
        unfold litVal at hafter
        rw [this] at hafter
        split_ifs at hafter
        cases hafter
      | some k =>
        obtain ⟨h1, h2, h3⟩ := found _ k hmn hx
        by_cases hkl : k = l
        · rw [← hkl]; exact h3
        · have := hf k h1 hkl
          rw [h3] at this; cases this

theorem unit_responsive {level n : Nat} {base : List (Nat × Bool)} : Responsive (unitEnv level n base) where
  mono := by
    intro e log a t h
    have h : unitAtom n base log a = some t := h
    show unitAtom n base (e :: log) a = some t
    cases e <;> unfold unitAtom <;> first | exact h | (split_ifs; exact unitStep_mono h; exact h)
  tt := by
    intro log
    show unitAtom n base log 1 = some true
    induction log with
    | nil => rfl
    | cons e log ih => cases e <;> unfold unitAtom <;> first | exact ih | (split_ifs; exact unitStep_mono ih; exact ih)
  still := fun log a => ⟨fun l => rfl, fun l => rfl, fun l v k => rfl⟩
  clause := by
    intro _ log c l hl ha hf
    have ha : sensible n log (unitAtom n base (.clause c :: log)) c = true := ha
    unfold sensible at ha
    rw [Bool.and_eq_true] at ha
    have e : unitAtom n base (.clause c :: log) = unitStep (unitAtom n base log) c := by
      funext a
      rw [unitAtom, if_pos ha.1]
    have := litVal_unit (s := unitAtom n base log) hl (by rw [← e]; exact ha.2) (fun m hm hml => by
      have := hf m hm hml
      unfold CC.isFalse at this
      rw [beq_iff_eq] at this
      have this : litVal (unitAtom n base (.clause c :: log)) m = some false := this
      rw [← e]; exact this)
    unfold CC.isTrue
    show (litVal (unitAtom n base (.clause c :: log)) l == some true) = true
    rw [e, this]
    rfl
  volatile := by
    intro _ log c l hl ha hf
    have ha : sensible n log (unitAtom n base (.volatile c :: log)) c = true := ha
    unfold sensible at ha
    rw [Bool.and_eq_true] at ha
    have e : unitAtom n base (.volatile c :: log) = unitStep (unitAtom n base log) c := by
      funext a
      rw [unitAtom, if_pos ha.1]
    have := litVal_unit (s := unitAtom n base log) hl (by rw [← e]; exact ha.2) (fun m hm hml => by
      have := hf m hm hml
      unfold CC.isFalse at this
      rw [beq_iff_eq] at this
      have this : litVal (unitAtom n base (.volatile c :: log)) m = some false := this
      rw [← e]; exact this)
    unfold CC.isTrue
    show (litVal (unitAtom n base (.volatile c :: log)) l == some true) = true
    rw [e, this]
    rfl

/-- Literals that are not knownLit are not assigned. -/
theorem unitAtom_new {n : Nat} {base : List (Nat × Bool)} (h1 : 1 < n) : ∀ {log : List SEv} {a : Nat}, n ≤ a → SEv.lit a ∉ log → unitAtom n base log a = none := by
  have step : ∀ {c : List Int} {log : List SEv} {a : Nat}, unitAtom n base log a = none → n ≤ a → SEv.lit a ∉ log → c.all (fun l => knownLit n log l.natAbs) = true →
      unitStep (unitAtom n base log) c a = none := by
    intro c log a h ha hn hk
    unfold unitStep
    rw [h]
    dsimp only
    rw [Option.map_eq_none_iff, List.find?_eq_none]
    intro l hl he
    rw [Bool.and_eq_true] at he
    have h3 : l.natAbs = a := by simpa using he.1
    have := List.all_eq_true.mp hk l hl
    unfold knownLit at this
    rw [h3] at this
    simp only [Bool.or_eq_true, decide_eq_true_eq, List.contains_iff_mem] at this
    rcases this with h | h
    · omega
    · exact hn h
  intro log
  induction log with
  | nil => intro a ha _; unfold unitAtom; rw [if_neg (by omega), if_neg (by omega)]
  | cons e log ih =>
    intro a ha hn
    have hn' : SEv.lit a ∉ log := fun h => hn (List.mem_cons_of_mem _ h)
    have := ih ha hn'
    cases e <;> unfold unitAtom <;> first | exact this | (split_ifs with hk; exact step this ha hn' hk; exact this)

theorem unit_newLits {level n : Nat} {base : List (Nat × Bool)} (h1 : 1 < n) (hn : (n : Int) ≤ W.nextLit)
    (h : W.log.all (fun e => match e with | .lit l => decide (l < W.nextLit) | _ => true) = true) : NewLits (unitEnv level n base) W := by
  intro new a ha hnew
  refine unitAtom_new h1 (by omega) (fun hm => ?_)
  rcases List.mem_append.mp hm with hm | hm
  · exact hnew hm
  · have := List.all_eq_true.mp h _ hm
    simp only [decide_eq_true_eq] at this
    omega

theorem outLits_dec {cc : CC} (h : W.vars.all (fun vs => vs.with.all (fun p => !(decide (p.1 + 1 < vs.lower) || decide (vs.upper < p.1)) || (cc.value W.log p.2).isSome)) = true) :
    OutLits cc W := by
  intro v vs hv k l hl ho
  have := List.all_eq_true.mp (List.all_eq_true.mp h vs (List.mem_of_getElem? hv)) (k, l) hl
  simp only [Bool.or_eq_true, Bool.not_eq_true', Bool.or_eq_false_iff, decide_eq_false_iff_not] at this
  rcases this with h | h
  · omega
  · intro e
    rw [e] at h; cases h

theorem boundLits_dec {cc : CC} (h : W.vars.all (fun vs =>
    (!decide (vs.minBound < vs.lower) || vs.with.any (fun p => p.1 == vs.lower - 1 && cc.isFalse W.log p.2)) &&
    (!decide (vs.upper < vs.maxBound) || vs.with.any (fun p => p.1 == vs.upper && cc.isTrue W.log p.2))) = true) : BoundLits cc W := by
  intro v vs hv
  have := List.all_eq_true.mp h vs (List.mem_of_getElem? hv)
  rw [Bool.and_eq_true, Bool.or_eq_true, Bool.or_eq_true] at this
  refine ⟨fun hlt => ?_, fun hlt => ?_⟩
  · rcases this.1 with h | h
    · simp at h; omega
    · obtain ⟨⟨k, l⟩, hp, hq⟩ := List.any_eq_true.mp h
      simp at hq
      exact ⟨l, by rw [← hq.1]; exact hp, hq.2⟩
  · rcases this.2 with h | h
    · simp at h; omega
    · obtain ⟨⟨k, l⟩, hp, hq⟩ := List.any_eq_true.mp h
      simp at hq
      exact ⟨l, by rw [← hq.1]; exact hp, hq.2⟩

/-- The call refers to no constraint. -/
def plainOp : Op → Bool
  | .removeConstraint _ => false
  | .updateMinimize _ _ _ => false
  | _ => true

theorem proper_of_run {ops : List Op} {W W' : World} (h : Run ops W W') : ∀ {d : Bool}, ops.all plainOp = true → ∃ d', ProperRun d ops W d' W' := by
  induction h with
  | nil W => exact fun _ => ⟨_, .nil _ _⟩
  | @cons op ops W W1 W2 r hp hx _ ih =>
    intro d ha
    rw [List.all_cons, Bool.and_eq_true] at ha
    obtain ⟨d', h'⟩ := ih (d := !W1.book.todo.isEmpty && (d || removesMarked op)) ha.2
    refine ⟨d', .cons hp ?_ hx h'⟩
    have h1 := ha.1
    cases op <;> trivial

instance (c : Constr) : Decidable (linearCon c) := by cases c <;> unfold linearCon <;> infer_instance

theorem linearOnly_dec (h : W.book.cs.all (fun c => decide (linearCon c.con)) = true) (hb : W.book.minimizeBound = none) : LinearOnly W :=
  ⟨fun n c hc _ => by simpa using List.all_eq_true.mp h c (List.mem_of_getElem? hc), fun b h => by rw [hb] at h; cases h⟩

/-- Two variables with the constraint `x + y ≤ 8`, order literals for `x ≤ 3` and `y ≤ 5`, and the decision `x > 3`, which has been
propagated, but the constraint has not been checked. -/
def decideOps : List Op :=
  [.addVar 0 10, .addVar 0 10, .addConstraint (.sum 1 8 [(1, 0), (1, 1)]), .simple idle 2 1 0 3 true, .simple idle 3 1 1 5 true, .check idle true 100,
   .propagate (unitEnv 1 5 [(2, false)]) [-2]]

def decideWorld : World := (tryProceed decideOps (World.init 5)).getD (World.init 5)

theorem decideWorld_proceed : Proceed decideOps (World.init 5) decideWorld := by
  refine tryProceed_proceed ?_
  unfold decideWorld
  have : (tryProceed decideOps (World.init 5)).isSome = true := by decide +kernel
  obtain ⟨W, hW⟩ := Option.isSome_iff_exists.mp this
  rw [hW]
  rfl

/-- The check above the top level returns. -/
example (b : Bool) : ∃ r W', (Op.check (unitEnv 1 5 [(2, false)]) b 100).exec decideWorld = .ok (r, W') := by
  obtain ⟨d, hd⟩ := proper_of_run (d := false) decideWorld_proceed.run (by decide +kernel)
  exact C68_check_returns (by decide) decideWorld_proceed hd unit_responsive (linearOnly_dec (by decide +kernel) (by decide +kernel)) (fun h => by cases h)
    (fun _ => ⟨boundLits_dec (by decide +kernel), outLits_dec (by decide +kernel), unit_newLits (by decide) (by decide +kernel) (by decide +kernel), by decide +kernel⟩)
    (by decide +kernel)

theorem idle_responsive : Responsive idle where
  mono := idle_mono
  tt _ := rfl
  still _ _ := ⟨fun _ => rfl, fun _ => rfl, fun _ _ _ => rfl⟩
  clause h := absurd rfl h
  volatile h := absurd rfl h

theorem proceed_of_run {ops : List Op} {W W' : World} (h : Run ops W W') : ops.all (fun op => !topLevel op) = true → Proceed ops W W' := by
  induction h with
  | nil W => exact fun _ => .nil _
  | @cons op ops W W1 W2 r hp hx _ ih =>
    intro ha
    rw [List.all_cons, Bool.and_eq_true] at ha
    exact .cons hp hx (fun _ => by simpa using ha.1) (ih ha.2)

theorem pingWorld_proceed : Proceed pingOps (World.init 5) pingWorld := proceed_of_run pingWorld_run (by decide +kernel)

/-- The check on the top level that takes several rounds returns. -/
example (b : Bool) : ∃ r W', (Op.check idle b 300).exec pingWorld = .ok (r, W') := by
  obtain ⟨d, hd⟩ := proper_of_run (d := false) pingWorld_proceed.run (by decide +kernel)
  exact C68_check_returns (by decide) pingWorld_proceed hd idle_responsive (linearOnly_dec (by decide +kernel) (by decide +kernel)) (fun _ => by decide +kernel)
    (fun h => absurd rfl h) (by decide +kernel)

end Clingcon.Props
