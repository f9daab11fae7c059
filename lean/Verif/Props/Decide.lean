import Verif.Spec.Decide
import Verif.Props.Chain
import Verif.Props.Simplified

/-! Decisions: property C76. -/
namespace Clingcon.Props
open Clingcon Clingcon.Spec

variable {cc cc0 : CC} {W W0 : World}

theorem free_neg {l : Int} (h : Free cc W l) : Free cc W (-l) := by
  unfold Free CC.value at *
  rw [Int.natAbs_neg]
  cases e : cc.atom W.log l.natAbs with
  | none => split_ifs <;> rfl
  | some b => rw [e] at h; split_ifs at h <;> cases h

theorem free_iff {l : Int} : Free cc W l ↔ ¬ cc.isTrue W.log l = true ∧ ¬ cc.isFalse W.log l = true := by
  unfold Free CC.isTrue CC.isFalse
  cases e : cc.value W.log l with
  | none => simp
  | some b => cases b <;> simp

/-- Under agreement the free order literals are those within the bounds. -/
theorem agree_free {v : Nat} {k l : Int} (ha : LitsAgree cc W) (ho : OrdLit W v k l) : Free cc W l ↔ lowerOf W v ≤ k ∧ k < upperOf W v := by
  obtain ⟨h1, h2⟩ := ha v k l ho
  rw [free_iff, h1, h2]
  omega

theorem litGe_spec {vs : VarState} (h : vs.WF) {x k0 l0 : Int} (hk : (k0, l0) ∈ vs.with) (hx : x ≤ k0) :
    ∃ k, x ≤ k ∧ k ≤ k0 ∧ (k, vs.litGe x) ∈ vs.with ∧ ∀ k' l, (k', l) ∈ vs.with → x ≤ k' → k ≤ k' := by
  obtain ⟨h1, h2⟩ := VarState.withGe_spec h x
  have hm0 := (h2 k0 l0).mpr ⟨hx, hk⟩
  unfold VarState.litGe
  cases e : vs.withGe x with
  | nil => rw [e] at hm0; cases hm0
  | cons p t =>
    obtain ⟨k, l⟩ := p
    have hm := (h2 k l).mp (by rw [e]; simp)
    have least : ∀ k' l', (k', l') ∈ vs.with → x ≤ k' → k ≤ k' := fun k' l' hk' hx' => by
      have := (h2 k' l').mpr ⟨hx', hk'⟩
      rw [e] at this h1
      rw [List.pairwise_cons] at h1
      rcases List.mem_cons.mp this with e1 | e1
      · simp at e1; omega
      · have := h1.1 _ e1; simp at this; omega
    exact ⟨k, hm.1, least _ _ hk hx, hm.2, least⟩

/-- The entry of a literal other than the true and false one is valid for an order literal, and only for those. -/
theorem entry_ord (ti : TI W) {l : Int} (h0 : l ≠ 0) (h1 : l.natAbs ≠ 1) :
    ((W.litmap.getD (mapOffset l) {}).valid l = true → OrdLit W (W.litmap.getD (mapOffset l) {}).var (W.litmap.getD (mapOffset l) {}).value l) ∧
    ∀ v k, OrdLit W v k l → (W.litmap.getD (mapOffset l) {}).valid l = true ∧ (W.litmap.getD (mapOffset l) {}).var = v ∧
      (W.litmap.getD (mapOffset l) {}).value = k := by
  refine ⟨fun hv => ?_, fun v k ⟨vs, hv, hm⟩ => ?_⟩
  · cases he : W.litmap[mapOffset l]? with
    | none =>
      rw [List.getD_eq_getElem?_getD, he] at hv
      cases hv
    | some e =>
      rw [List.getD_eq_getElem?_getD, he] at hv ⊢
      simp only [Option.getD_some] at hv ⊢
      unfold LitmapEntry.valid at hv
      rw [Bool.and_eq_true, bne_iff_ne, beq_iff_eq] at hv
      obtain ⟨-, vs, h2, -, -⟩ := ti.link _ e he hv.1
      have := ti.mem _ e he hv.1 vs h2
      refine ⟨vs, h2, ?_⟩
      have hl : litAt (mapOffset l) e.sign = l := by
        rw [← hv.2]
        unfold litAt mapOffset LitmapEntry.getSign
        by_cases hp : l > 0 <;> simp [hp] <;> omega
      rw [hl] at this
      exact this
  · obtain ⟨e, he, hp, hv', hk, hs⟩ := ti.own v vs k l hv hm h1
    rw [List.getD_eq_getElem?_getD, he]
    simp only [Option.getD_some]
    exact ⟨by unfold LitmapEntry.valid; rw [Bool.and_eq_true, bne_iff_ne, beq_iff_eq]; exact ⟨hp, hs.symm⟩, hv', hk⟩

/-- **C76** If order literals and bounds agree, and the literal proposed by the Boolean solver is free, then the call returns a free literal.
Without heuristic, or if the proposed literal is not an order literal or its complement, then the proposed literal is returned.
Otherwise, the literal for the smallest possible upper bound is returned if the proposed literal is an order literal, and the
complement of the literal for the largest possible bound is returned if it is the complement of one. -/
theorem C76_decide {f : Lit} (hr : Reach W) (ha : LitsAgree cc W) (h0 : f ≠ 0) (h1 : f.natAbs ≠ 1) (hf : Free cc W f) :
    ∃ l, solverDecide cc f W = .ok (l, W) ∧ Free cc W l ∧ (cc.conf.heuristic = .none → l = f) ∧
      ((∀ v k, ¬ OrdLit W v k f ∧ ¬ OrdLit W v k (-f)) → l = f) ∧
      (cc.conf.heuristic = .maxChain → ∀ v k, (OrdLit W v k f → LeastFree cc W v l) ∧ (OrdLit W v k (-f) → GreatestFree cc W v (-l))) := by
  have ti := hr.ti
  have up : ∀ v vs, W.vars[v]? = some vs → upperOf W v = vs.upper ∧ lowerOf W v = vs.lower := fun v vs hv => by
    simp [upperOf, lowerOf, boundsOf, hv]
  unfold solverDecide
  cases hh : cc.conf.heuristic with
  | none => exact ⟨f, rfl, hf, fun _ => rfl, fun _ => rfl, fun h => by cases h⟩
  | maxChain =>
    obtain ⟨a1, a2⟩ := entry_ord ti h0 h1
    obtain ⟨b1, b2⟩ := entry_ord ti (l := -f) (by omega) (by rw [Int.natAbs_neg]; exact h1)
    have n0 : -f ≠ 0 := by omega
    have e0 : ∀ l : Int, l ≠ 0 → litmapAt l W = .ok (W.litmap.getD (mapOffset l) {}, W) := fun l hl => by
      unfold litmapAt; rw [if_neg hl]
    have same : ∀ l : Int, mapOffset (-l) = mapOffset l := fun l => by unfold mapOffset; rw [Int.natAbs_neg]
    have neither : ∀ v k w j, OrdLit W v k f → ¬ OrdLit W w j (-f) := fun v k w j h h' => by
      have p := (a2 v k h).1
      have q := (b2 w j h').1
      rw [same] at q
      unfold LitmapEntry.valid LitmapEntry.getSign at p q
      rw [Bool.and_eq_true, bne_iff_ne, beq_iff_eq] at p q
      have := p.2.trans q.2.symm
      rw [decide_eq_decide] at this
      omega
    by_cases hv : (W.litmap.getD (mapOffset f) {}).valid f = true
    · have ho := a1 hv
      obtain ⟨vs, hvs, hm⟩ := ho
      obtain ⟨u1, u2⟩ := up _ _ hvs
      obtain ⟨k, k1, k2, k3, k4⟩ := litGe_spec (ti.wf _ _ hvs) hm (x := vs.lower) (by rw [← u2]; exact ((agree_free ha ⟨vs, hvs, hm⟩).mp hf).1)
      have hl : Free cc W (vs.litGe vs.lower) := (agree_free ha ⟨vs, hvs, k3⟩).mpr ⟨by rw [u2]; exact k1, lt_of_le_of_lt k2 ((agree_free ha ⟨vs, hvs, hm⟩).mp hf).2⟩
      refine ⟨vs.litGe vs.lower, ?_, hl, fun h => (by cases h), fun h => absurd ⟨vs, hvs, hm⟩ (h _ _).1, fun _ v j => ⟨fun h => ?_, fun h => absurd h (neither _ _ _ _ ⟨vs, hvs, hm⟩)⟩⟩
      · refine bind_iff.mpr ⟨_, W, e0 f h0, bind_iff.mpr ⟨_, W, e0 (-f) n0, ?_⟩⟩
        rw [if_pos hv]
        refine bind_iff.mpr ⟨vs, W, getVar_iff.mpr ⟨hvs, rfl⟩, ?_⟩
        exact bind_iff.mpr ⟨_, W, qValue_iff.mpr ⟨rfl, rfl⟩, bind_iff.mpr ⟨(), W, assertS_iff.mpr ⟨beq_iff_eq.mpr hl, rfl⟩, rfl⟩⟩
      · obtain ⟨-, e1, e2⟩ := a2 v j h
        rw [← e1]
        refine ⟨k, ⟨vs, hvs, k3⟩, hl, fun k' l' ho' hfr => ?_⟩
        have := (agree_free ha ho').mp hfr
        obtain ⟨vs', hvs', hm'⟩ := ho'
        rw [hvs] at hvs'
        injection hvs' with hvs'
        subst hvs'
        exact k4 k' l' hm' (by rw [← u2]; exact this.1)
    · by_cases hv' : (W.litmap.getD (mapOffset (-f)) {}).valid (-f) = true
      · have ho := b1 hv'
        obtain ⟨vs, hvs, hm⟩ := ho
        obtain ⟨u1, u2⟩ := up _ _ hvs
        have hk := (agree_free ha ⟨vs, hvs, hm⟩).mp (free_neg hf)
        rw [u1, u2] at hk
        obtain ⟨hz, hno⟩ | ⟨hz, k, k1, k2, k3⟩ := VarState.litLt_spec (ti.wf _ _ hvs) vs.upper
        · exact absurd hk.2 (hno _ _ hm)
        have kle : (W.litmap.getD (mapOffset (-f)) {}).value ≤ k := by
          by_contra hlt
          exact k3 _ _ hm (by omega) hk.2
        have hl : Free cc W (vs.litLt vs.upper) := (agree_free ha ⟨vs, hvs, k2⟩).mpr ⟨by rw [u2]; omega, by rw [u1]; exact k1⟩
        refine ⟨-vs.litLt vs.upper, ?_, free_neg hl, fun h => (by cases h), fun h => absurd ⟨vs, hvs, hm⟩ (h _ _).2, fun _ v j => ⟨fun h => absurd ⟨vs, hvs, hm⟩ (neither _ _ _ _ h), fun h => ?_⟩⟩
        · refine bind_iff.mpr ⟨_, W, e0 f h0, bind_iff.mpr ⟨_, W, e0 (-f) n0, ?_⟩⟩
          rw [if_neg hv, if_pos hv']
          refine bind_iff.mpr ⟨vs, W, getVar_iff.mpr ⟨hvs, rfl⟩, ?_⟩
          exact bind_iff.mpr ⟨_, W, qValue_iff.mpr ⟨rfl, rfl⟩, bind_iff.mpr ⟨(), W, assertS_iff.mpr ⟨beq_iff_eq.mpr (free_neg hl), rfl⟩, rfl⟩⟩
        · obtain ⟨-, e1, e2⟩ := b2 v j h
          rw [← e1, Int.neg_neg]
          refine ⟨k, ⟨vs, hvs, k2⟩, hl, fun k' l' ho' hfr => ?_⟩
          have := (agree_free ha ho').mp hfr
          obtain ⟨vs', hvs', hm'⟩ := ho'
          rw [hvs] at hvs'
          injection hvs' with hvs'
          subst hvs'
          by_contra hlt
          exact k3 k' l' hm' (by omega) (by rw [← u1]; exact this.2)
      · refine ⟨f, ?_, hf, fun h => (by cases h), fun _ => rfl, fun _ v j => ⟨fun h => absurd (a2 v j h).1 hv, fun h => absurd (b2 v j h).1 hv'⟩⟩
        refine bind_iff.mpr ⟨_, W, e0 f h0, bind_iff.mpr ⟨_, W, e0 (-f) n0, ?_⟩⟩
        rw [if_neg hv, if_neg hv']
        rfl

/-- **C76** Order literals and bounds agree when a decision is made above the top level: literals have been passed to successful calls of `propagate` on the
current level as in `C70_complete`, all assigned order literals have been passed, and literals that have been passed are still true. -/
theorem C76_agree {n : Int} {ops ops' : List Op} {ls : List Int} {t : Told} {ts : List Told} (hn : 1 < n) (h : Run ops (World.init n) W0) (hc : cc0.level ≠ 0)
    (hf : W0.factmap = [])
    (h0 : ∀ v k l, OrdLit W0 v k l → (cc0.isTrue W0.log l = true → Linked cc0 W0 l) ∧ (cc0.isFalse W0.log l = true → Linked cc0 W0 (-l)))
    (hp : Passes cc0 W0 ls cc W)
    (hq : ∀ v k l, OrdLit W v k l → (cc.isTrue W.log l = true → cc0.isTrue W0.log l = true ∨ l ∈ ls) ∧ (cc.isFalse W.log l = true → cc0.isFalse W0.log l = true ∨ -l ∈ ls))
    (ht : TopLits cc W) (hfed : Fed ops' (World.init n) [Told.none] W (t :: ts)) (htrue : ∀ l, t.tried l → cc.isTrue W.log l = true)
    (hall : ∀ v k l, OrdLit W v k l → (cc.isTrue W.log l = true → t.done l) ∧ (cc.isFalse W.log l = true → t.done (-l))) : LitsAgree cc W := by
  have q := fed_top hn hfed
  have hb := C50_justified hn hfed htrue
  have n1 := ordLits_ne1 (passes_linked (FI.run h (FI.init hn)) hf hc hp).1 (passes_linked (FI.run h (FI.init hn)) hf hc hp).2.1
  intro v k l ho
  obtain ⟨vs, hv, hl⟩ := ho
  obtain ⟨c1, c2, -⟩ := C70_complete hn h hc hf h0 hp hq hb ht hv hl
  have e1 : lowerOf W v = vs.lower := by simp [lowerOf, boundsOf, hv]
  have e2 : upperOf W v = vs.upper := by simp [upperOf, boundsOf, hv]
  obtain ⟨f1, f2⟩ := q.fwd v k l ⟨vs, hv, hl⟩ (n1 v k l ⟨vs, hv, hl⟩)
  obtain ⟨a1, a2⟩ := hall v k l ⟨vs, hv, hl⟩
  exact ⟨⟨fun hh => f1 (a1 hh), fun hh => c1 (by rw [← e2]; exact hh)⟩, ⟨fun hh => f2 (a2 hh), fun hh => c2 (by rw [← e1]; exact hh)⟩⟩

/-- Agreement can be checked for each variable. -/
theorem agree_dec (h : W.vars.all (fun vs => vs.with.all (fun p => (cc.isTrue W.log p.2 == decide (vs.upper ≤ p.1)) && (cc.isFalse W.log p.2 == decide (p.1 < vs.lower)))) = true) :
    LitsAgree cc W := by
  rintro v k l ⟨vs, hv, hl⟩
  have := List.all_eq_true.mp (List.all_eq_true.mp h vs (List.mem_of_getElem? hv)) (k, l) hl
  rw [Bool.and_eq_true, beq_iff_eq, beq_iff_eq] at this
  have e1 : lowerOf W v = vs.lower := by simp [lowerOf, boundsOf, hv]
  have e2 : upperOf W v = vs.upper := by simp [upperOf, boundsOf, hv]
  rw [e1, e2, this.1, this.2]
  simp

theorem decides_to {x : SM Int} {l m : Int} (h : x W = .ok (l, W)) (h' : (x W).toOption.map Prod.fst = some m) : x W = .ok (m, W) := by
  have : l = m := by rw [h] at h'; injection h'
  rw [h, this]

/-- The Boolean solver after the decision `x ≤ 7`, with the heuristic. -/
def decideEnv : CC := { assigns 1 [(4, true)] with conf := { (assigns 1 []).conf with heuristic := .maxChain } }
def decideEnd : World := after (.propagate decideEnv [4]) chainWorld

/-- The literals 2, 3 and 4 stand for `x ≤ 3`, `x ≤ 5` and `x ≤ 7`. After the decision `x ≤ 7`, the proposal `x ≤ 5` is turned into `x ≤ 3`, and the proposal
`x > 3` into `x > 5`. -/
example : Reach decideEnd ∧ LitsAgree decideEnv decideEnd ∧ Free decideEnv decideEnd 3 ∧ Free decideEnv decideEnd (-2) ∧
    solverDecide decideEnv 3 decideEnd = .ok (2, decideEnd) ∧ solverDecide decideEnv (-2) decideEnd = .ok (-3, decideEnd) := by
  have hx : (Op.propagate decideEnv [4]).exec chainWorld = .ok (true, decideEnd) := after_eq (by decide +kernel)
  have hr : Reach decideEnd := ⟨5, _, by decide, Run.append chain_run (.cons (Op.preB_iff.mp (by decide +kernel)) hx (.nil _))⟩
  have ha : LitsAgree decideEnv decideEnd := agree_dec (by decide +kernel)
  have f1 : Free decideEnv decideEnd 3 := by unfold Free; decide +kernel
  have f2 : Free decideEnv decideEnd (-2) := by unfold Free; decide +kernel
  refine ⟨hr, ha, f1, f2, ?_, ?_⟩
  · obtain ⟨l, e, -⟩ := C76_decide hr ha (by decide) (by decide) f1
    have : ((solverDecide decideEnv 3 decideEnd).toOption.map Prod.fst) = some 2 := by decide +kernel
    exact decides_to e this
  · obtain ⟨l, e, -⟩ := C76_decide hr ha (by decide) (by decide) f2
    have : ((solverDecide decideEnv (-2) decideEnd).toOption.map Prod.fst) = some (-3) := by decide +kernel
    exact decides_to e this

end Clingcon.Props
