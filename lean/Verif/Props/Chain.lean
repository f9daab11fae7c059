import Verif.Proof.Chain
import Verif.Props.SafeCheck
import Verif.Props.Update
import Verif.Props.Given

/-! Property C70: propagation of order literals is complete. -/
namespace Clingcon.Props
open Clingcon Clingcon.Spec

variable {cc cc0 : CC} {W W0 : World}

theorem ordLits_ne1 (h : FI W) (hf : W.factmap = []) : ∀ v k l, OrdLit W v k l → l.natAbs ≠ 1 := fun v k l ho h1 => by
  obtain ⟨p, hp⟩ := h.inn v k l ho h1
  rw [hf] at hp
  exact (List.not_mem_nil hp).elim

theorem isTrue_grow {cc' : CC} {log : List SEv} (hg : ∀ a b, cc.atom log a = some b → cc'.atom log a = some b) {l : Int} (h : cc.isTrue log l = true) :
    cc'.isTrue log l = true := by
  unfold CC.isTrue CC.value at *
  cases hx : cc.atom log l.natAbs with
  | none => rw [hx] at h; split_ifs at h <;> cases h
  | some b => rw [hx] at h; rw [hg _ _ hx]; exact h

theorem isFalse_grow {cc' : CC} {log : List SEv} (hg : ∀ a b, cc.atom log a = some b → cc'.atom log a = some b) {l : Int} (h : cc.isFalse log l = true) :
    cc'.isFalse log l = true := by
  unfold CC.isFalse CC.value at *
  cases hx : cc.atom log l.natAbs with
  | none => rw [hx] at h; split_ifs at h <;> cases h
  | some b => rw [hx] at h; rw [hg _ _ hx]; exact h

theorem linked_grow {cc' : CC} (hg : ∀ a b, cc.atom W.log a = some b → cc'.atom W.log a = some b) {l : Int} (h : Linked cc W l) : Linked cc' W l :=
  ⟨fun v k ho k' l' a b c => isTrue_grow hg (h.1 v k ho k' l' a b c), fun v k ho k' l' a b c => isFalse_grow hg (h.2 v k ho k' l' a b c)⟩

theorem passes_linked {ls : List Int} (hi : FI W0) (hf : W0.factmap = []) (hc : cc0.level ≠ 0) (h : Passes cc0 W0 ls cc W) :
    FI W ∧ W.factmap = [] ∧ (∀ v k l, OrdLit W v k l ↔ OrdLit W0 v k l) ∧ (∀ l ∈ ls, Linked cc W l) ∧ ∀ l, Linked cc0 W0 l → Linked cc W l := by
  induction h with
  | start => exact ⟨hi, hf, fun _ _ _ => Iff.rfl, fun l hl => (List.not_mem_nil hl).elim, fun l h => h⟩
  | @call ls cc W cc' new W' _ hr hl hg hp hx ih =>
    obtain ⟨i1, i2, i3, i4, i5⟩ := ih
    obtain ⟨s, k⟩ := solverPropagate_linked hr (by rw [hl]; exact hc) i1.ti (ordLits_ne1 i1 i2) (show solverPropagate cc' new W = .ok (true, W') from hx)
    refine ⟨FI.exec i1 hp hx, s.fm.trans i2, fun v k l => (s.ord v k l).trans (i3 v k l), fun l hl => ?_, fun l h => linked_of (linked_grow hg (i5 l h)) hr.mono s⟩
    rcases List.mem_append.mp hl with hl | hl
    · exact linked_of (linked_grow hg (i4 l hl)) hr.mono s
    · exact k l hl

/-- If all true order literals are linked to the next ones, all order literals above a true one are true. -/
theorem linked_up (ti : TI W) (hl : ∀ v k l, OrdLit W v k l → cc.isTrue W.log l = true → Linked cc W l) {v : Nat} : ∀ (n : Nat) {k l k' l' : Int}, OrdLit W v k l → OrdLit W v k' l' →
    k < k' → k' - k ≤ n → cc.isTrue W.log l = true → cc.isTrue W.log l' = true
  | 0, k, l, k', l', _, _, hk, hn, _ => by omega
  | n + 1, k, l, k', l', h, h', hk, hn, ht => by
    obtain ⟨j, ⟨⟨m, hj⟩, hkj⟩, hmin⟩ := Int.exists_least_of_bdd (P := fun j => (∃ m, OrdLit W v j m) ∧ k < j) ⟨k, fun z hz => Int.le_of_lt hz.2⟩ ⟨k', ⟨l', h'⟩, hk⟩
    have hm := (hl v k l h ht).1 v k h j m hj hkj (fun i m' hi hki => hmin i ⟨⟨m', hi⟩, hki⟩)
    have hle := hmin k' ⟨⟨l', h'⟩, hk⟩
    rcases Int.lt_or_eq_of_le hle with hlt | rfl
    · exact linked_up ti hl n hj h' hlt (by omega) hm
    · obtain ⟨vs, a, b⟩ := hj
      obtain ⟨vs', a', b'⟩ := h'
      rw [a] at a'; injection a' with a'; subst a'
      rw [with_unique (ti.wf _ _ a) b' b]
      exact hm

theorem linked_down (ti : TI W) (hl : ∀ v k l, OrdLit W v k l → cc.isFalse W.log l = true → Linked cc W (-l)) {v : Nat} : ∀ (n : Nat) {k l k' l' : Int}, OrdLit W v k l →
    OrdLit W v k' l' → k' < k → k - k' ≤ n → cc.isFalse W.log l = true → cc.isFalse W.log l' = true
  | 0, k, l, k', l', _, _, hk, hn, _ => by omega
  | n + 1, k, l, k', l', h, h', hk, hn, ht => by
    obtain ⟨j, ⟨⟨m, hj⟩, hkj⟩, hmax⟩ := Int.exists_greatest_of_bdd (P := fun j => (∃ m, OrdLit W v j m) ∧ j < k) ⟨k, fun z hz => Int.le_of_lt hz.2⟩ ⟨k', ⟨l', h'⟩, hk⟩
    have hm := (hl v k l h ht).2 v k (by rw [Int.neg_neg]; exact h) j m hj hkj (fun i m' hi hki => hmax i ⟨⟨m', hi⟩, hki⟩)
    have hle := hmax k' ⟨⟨l', h'⟩, hk⟩
    rcases Int.lt_or_eq_of_le hle with hlt | rfl
    · exact linked_down ti hl n hj h' hlt (by omega) hm
    · obtain ⟨vs, a, b⟩ := hj
      obtain ⟨vs', a', b'⟩ := h'
      rw [a] at a'; injection a' with a'; subst a'
      rw [with_unique (ti.wf _ _ a) b' b]
      exact hm

/-- C70: let literals be passed to successful calls of `propagate` on a level above the top level, starting in a state in which assigned order
literals are linked to their neighbours. If at the end all assigned order literals have been passed (or were assigned at the start), then
order literals are consistent with the bounds of variables: those for values not below the upper bound are true, and those for values
below the lower bound are false. Furthermore, they are consistent with each other. -/
theorem C70_complete {n : Int} {ops : List Op} {ls : List Int} (hn : 1 < n) (h : Run ops (World.init n) W0) (hc : cc0.level ≠ 0) (hf : W0.factmap = [])
    (h0 : ∀ v k l, OrdLit W0 v k l → (cc0.isTrue W0.log l = true → Linked cc0 W0 l) ∧ (cc0.isFalse W0.log l = true → Linked cc0 W0 (-l)))
    (hp : Passes cc0 W0 ls cc W)
    (hq : ∀ v k l, OrdLit W v k l → (cc.isTrue W.log l = true → cc0.isTrue W0.log l = true ∨ l ∈ ls) ∧ (cc.isFalse W.log l = true → cc0.isFalse W0.log l = true ∨ -l ∈ ls))
    (hb : BoundLits cc W) (ht : TopLits cc W) {v : Nat} {vs : VarState} (hv : W.vars[v]? = some vs) {k l : Int} (hl : (k, l) ∈ vs.with) :
    (vs.upper ≤ k → cc.isTrue W.log l = true) ∧ (k < vs.lower → cc.isFalse W.log l = true) ∧
    ∀ k' l', (k', l') ∈ vs.with → k ≤ k' → (cc.isTrue W.log l = true → cc.isTrue W.log l' = true) ∧ (cc.isFalse W.log l' = true → cc.isFalse W.log l = true) := by
  obtain ⟨i1, i2, i3, i4, i5⟩ := passes_linked (FI.run h (FI.init hn)) hf hc hp
  have up : ∀ v k l, OrdLit W v k l → cc.isTrue W.log l = true → Linked cc W l := fun v k l ho ht => by
    rcases (hq v k l ho).1 ht with a | a
    · exact i5 _ ((h0 v k l ((i3 v k l).mp ho)).1 a)
    · exact i4 _ a
  have down : ∀ v k l, OrdLit W v k l → cc.isFalse W.log l = true → Linked cc W (-l) := fun v k l ho ht => by
    rcases (hq v k l ho).2 ht with a | a
    · exact i5 _ ((h0 v k l ((i3 v k l).mp ho)).2 a)
    · exact i4 _ a
  have mono : ∀ k l k' l', (k, l) ∈ vs.with → (k', l') ∈ vs.with → k ≤ k' → (cc.isTrue W.log l = true → cc.isTrue W.log l' = true) ∧
      (cc.isFalse W.log l' = true → cc.isFalse W.log l = true) := by
    intro k l k' l' hl hl' hk
    rcases Int.lt_or_eq_of_le hk with hlt | rfl
    · exact ⟨linked_up i1.ti up (k' - k).toNat ⟨vs, hv, hl⟩ ⟨vs, hv, hl'⟩ hlt (by omega), linked_down i1.ti down (k' - k).toNat ⟨vs, hv, hl'⟩ ⟨vs, hv, hl⟩ hlt (by omega)⟩
    · rw [with_unique (i1.ti.wf _ _ hv) hl hl']
      exact ⟨id, id⟩
  obtain ⟨b1, b2⟩ := hb v vs hv
  obtain ⟨t1, t2⟩ := ht v vs hv k l hl
  refine ⟨fun hk => ?_, fun hk => ?_, fun k' l' hl' hk => mono k l k' l' hl hl' hk⟩
  · by_cases hm : vs.upper < vs.maxBound
    · obtain ⟨m, hm, hmt⟩ := b2 hm
      exact (mono _ m k l hm hl hk).1 hmt
    · exact t1 (by omega)
  · by_cases hm : vs.minBound < vs.lower
    · obtain ⟨m, hm, hmt⟩ := b1 hm
      exact (mono k l _ m hl hm (by omega)).2 hmt
    · exact t2 (by omega)

/-- C70: the assumption of C68 on order literals outside of the bounds is met after such calls. -/
theorem C70_out {n : Int} {ops : List Op} {ls : List Int} (hn : 1 < n) (h : Run ops (World.init n) W0) (hc : cc0.level ≠ 0) (hf : W0.factmap = [])
    (h0 : ∀ v k l, OrdLit W0 v k l → (cc0.isTrue W0.log l = true → Linked cc0 W0 l) ∧ (cc0.isFalse W0.log l = true → Linked cc0 W0 (-l)))
    (hp : Passes cc0 W0 ls cc W)
    (hq : ∀ v k l, OrdLit W v k l → (cc.isTrue W.log l = true → cc0.isTrue W0.log l = true ∨ l ∈ ls) ∧ (cc.isFalse W.log l = true → cc0.isFalse W0.log l = true ∨ -l ∈ ls))
    (hb : BoundLits cc W) (ht : TopLits cc W) : OutLits cc W := by
  intro v vs hv k l hl ho
  obtain ⟨a, b, -⟩ := C70_complete hn h hc hf h0 hp hq hb ht hv hl
  rcases ho with ho | ho
  · exact false_some (b (by omega))
  · exact true_some (a (by omega))

/-- A variable with order literals for three values. -/
def chainOps : List Op :=
  [.addVar 0 10, .simple idle 2 1 0 3 true, .simple idle 3 1 0 5 true, .simple idle 4 1 0 7 true, .check idle true 100]

def chainWorld : World := (tryRun chainOps (World.init 5)).getD (World.init 5)
def chainEnv : CC := unitEnv 1 5 [(2, true)]
def chainEnd : World := after (.propagate chainEnv [3, 4]) (after (.propagate chainEnv [2]) chainWorld)

theorem chain_run : Run chainOps (World.init 5) chainWorld := tryRun_getD (by decide +kernel)

/-- All order literals satisfy the condition. -/
def ordAll (W : World) (P : Int → Bool) : Bool := W.vars.all (fun vs => vs.with.all (fun p => P p.2))

theorem ordAll_iff {P : Int → Bool} (h : ordAll W P = true) {v : Nat} {k l : Int} (ho : OrdLit W v k l) : P l = true := by
  obtain ⟨vs, a, b⟩ := ho
  exact List.all_eq_true.mp (List.all_eq_true.mp h vs (List.mem_of_getElem? a)) (k, l) b

theorem unit_grow {n level level' : Nat} {base base' : List (Nat × Bool)} (h1 : 1 < n) {log : List SEv}
    (hn : log.all (fun e => match e with | .lit l => decide (l < n) | _ => true) = true)
    (h : (List.range n).all (fun a => match unitAtom n base log a with | none => true | some b => unitAtom n base' log a == some b) = true) :
    ∀ a b, (unitEnv level n base).atom log a = some b → (unitEnv level' n base').atom log a = some b := by
  intro a b hb
  have hb : unitAtom n base log a = some b := hb
  by_cases ha : a < n
  · have := List.all_eq_true.mp h a (List.mem_range.mpr ha)
    rw [hb] at this
    exact beq_iff_eq.mp this
  · rw [unitAtom_new h1 (by omega) (fun hm => by have := List.all_eq_true.mp hn _ hm; simp only [decide_eq_true_eq] at this; omega)] at hb
    cases hb

theorem passes_step {ls new : List Int} {cc' : CC} (hp : Passes cc0 W0 ls cc W) (hr : Responsive cc') (hl : cc'.level = cc0.level)
    (hg : ∀ a b, cc.atom W.log a = some b → cc'.atom W.log a = some b) (h1 : (Op.propagate cc' new).preB W = true)
    (h2 : ((Op.propagate cc' new).exec W).toOption.map Prod.fst = some true) : Passes cc0 W0 (ls ++ new) cc' (after (.propagate cc' new) W) :=
  .call hp hr hl hg (Op.preB_iff.mp h1) (after_eq h2)

/-- The decision `x ≤ 3` is passed; the literals for `x ≤ 5` and `x ≤ 7` become true by clauses that are added and are passed in the
second call. -/
theorem chain_passes : Passes (unitEnv 1 5 []) chainWorld ([] ++ [2] ++ [3, 4]) chainEnv chainEnd :=
  passes_step (passes_step .start unit_responsive rfl (unit_grow (by decide) (by decide +kernel) (by decide +kernel)) (by decide +kernel) (by decide +kernel))
    unit_responsive rfl (fun _ _ h => h) (by decide +kernel) (by decide +kernel)

theorem topLits_dec (h : W.vars.all (fun vs => vs.with.all (fun p => !decide (vs.maxBound ≤ p.1) && !decide (p.1 < vs.minBound))) = true) : TopLits cc W := by
  intro v vs hv k l hl
  have := List.all_eq_true.mp (List.all_eq_true.mp h vs (List.mem_of_getElem? hv)) (k, l) hl
  simp only [Bool.and_eq_true, Bool.not_eq_true', decide_eq_false_iff_not] at this
  exact ⟨fun h => absurd h this.1, fun h => absurd h this.2⟩

/-- The upper bound is 3 and all order literals are true. -/
example : chainEnd.vars.map (fun vs => (vs.lower, vs.upper)) = [(0, 3)] ∧ OutLits chainEnv chainEnd := by
  have hu : ordAll chainWorld (fun l => !(unitEnv 1 5 []).isTrue chainWorld.log l && !(unitEnv 1 5 []).isFalse chainWorld.log l) = true := by decide +kernel
  have he : ordAll chainEnd (fun l => !chainEnv.isFalse chainEnd.log l && [2, 3, 4].contains l) = true := by decide +kernel
  refine ⟨by decide +kernel, C70_out (by decide) chain_run (by decide) (by decide +kernel) (fun v k l ho => ?_) chain_passes (fun v k l ho => ?_)
    (boundLits_dec (by decide +kernel)) (topLits_dec (by decide +kernel))⟩
  · have := ordAll_iff hu ho
    simp only [Bool.and_eq_true, Bool.not_eq_true'] at this
    exact ⟨fun h => absurd h (by rw [this.1]; decide), fun h => absurd h (by rw [this.2]; decide)⟩
  · have := ordAll_iff he ho
    simp only [Bool.and_eq_true, Bool.not_eq_true', List.contains_iff_mem] at this
    exact ⟨fun _ => Or.inr this.2, fun h => absurd h (by rw [this.1]; decide)⟩

end Clingcon.Props
