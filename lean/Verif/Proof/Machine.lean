import Verif.Model.Machine
import Verif.Proof.SumDetect
import Verif.Spec.Bounds
import Verif.Proof.Nested
import Verif.Proof.LinksRun
import Mathlib.Tactic.Linarith
import Mathlib.Tactic.Ring

/-! The arithmetic of linear constraints stays within 64 bits. -/
namespace Clingcon
open Spec VarState

variable {W W' : World} {cc : CC} {α γ : Type}

/-! ### Bounds within limits -/

/-- All bounds, including those that were valid on lower levels, are within limits. -/
structure Box (L U : Int) (vs : VarState) : Prop where
  low : ∀ x ∈ vs.lower :: vs.lowerStack.map (·.2), L ≤ x
  upp : ∀ x ∈ vs.upper :: vs.upperStack.map (·.2), x ≤ U

def AllBox (L U : Int) (W : World) : Prop := ∀ y ∈ (frame W).1, Box L U y

/-- Bounds are within limits and nested. -/
def Boxed (L U : Int) (W : World) : Prop := AllNested W ∧ AllBox L U W

variable {L U : Int}

theorem box_bounds {vs : VarState} : Box L U vs.bounds ↔ Box L U vs := ⟨fun h => ⟨h.low, h.upp⟩, fun h => ⟨h.low, h.upp⟩⟩

theorem AllBox.get {v : Nat} {vs : VarState} (h : AllBox L U W) (hv : W.vars[v]? = some vs) : Box L U vs :=
  box_bounds.mp (h _ (List.mem_map_of_mem (List.mem_of_getElem? hv)))

theorem AllBox.fr {x : SM α} (hx : Fr x) : Kw (Boxed L U) x :=
  ⟨fun W a W' h hp => ⟨(AllNested.fr hx).kw _ _ _ h hp.1, by unfold AllBox; rw [hx.fr _ _ _ h]; exact hp.2⟩⟩

theorem AllBox.set {v : Nat} {y : VarState} {F : List VarState} (h : AllBox L U W) (hy : Box L U y) (he : F = (frame W).1.set v y) : ∀ y ∈ F, Box L U y := by
  subst he
  intro z hz
  rcases List.mem_or_eq_of_mem_set hz with hz | rfl
  · exact h z hz
  · exact hy

theorem AllBox.updLower {l v : Nat} {x : Int} {u : Unit} (hi : Boxed L U W) (hx : ∀ vs, W.vars[v]? = some vs → vs.lower < x + 1 ∧ x + 1 ≤ vs.upper)
    (h : updateLower l v x W = .ok (u, W')) : Boxed L U W' := by
  refine ⟨hi.1.updLower hx h, ?_⟩
  obtain ⟨y, hv, e⟩ := updateLower_frame h
  have hb := hi.2.get hv
  obtain ⟨h1, h2⟩ := hx y hv
  have h3 := hb.low y.lower (List.mem_cons_self ..)
  unfold AllBox
  rw [e]
  refine hi.2.set ?_ rfl
  refine ⟨?_, hb.upp⟩
  intro b hm
  rcases List.mem_cons.mp hm with rfl | hm
  · show L ≤ x + 1; omega
  · dsimp only at hm
    split_ifs at hm
    · rw [List.map_cons] at hm
      rcases List.mem_cons.mp hm with rfl | hm
      · exact h3
      · exact hb.low b (List.mem_cons_of_mem _ hm)
    · exact hb.low b (List.mem_cons_of_mem _ hm)

theorem AllBox.updUpper {l v : Nat} {x : Int} {u : Unit} (hi : Boxed L U W) (hx : ∀ vs, W.vars[v]? = some vs → x < vs.upper ∧ vs.lower ≤ x)
    (h : updateUpper l v x W = .ok (u, W')) : Boxed L U W' := by
  refine ⟨hi.1.updUpper hx h, ?_⟩
  obtain ⟨y, hv, e⟩ := updateUpper_frame h
  have hb := hi.2.get hv
  obtain ⟨h1, h2⟩ := hx y hv
  have h3 := hb.upp y.upper (List.mem_cons_self ..)
  unfold AllBox
  rw [e]
  refine hi.2.set ?_ rfl
  refine ⟨hb.low, ?_⟩
  intro b hm
  rcases List.mem_cons.mp hm with he | hm
  · rw [he]; show x ≤ U; omega
  · dsimp only at hm
    split_ifs at hm
    · rw [List.map_cons] at hm
      rcases List.mem_cons.mp hm with rfl | hm
      · exact h3
      · exact hb.upp b (List.mem_cons_of_mem _ hm)
    · exact hb.upp b (List.mem_cons_of_mem _ hm)

theorem AllBox.vars {v : Nat} {y : VarState} (hi : AllBox L U W) (hy : Box L U y) : AllBox L U { W with vars := W.vars.set v y } := by
  refine hi.set (v := v) (box_bounds.mpr hy) ?_
  simp only [frame, vars_set]

theorem AllBox.undoLowerVar {v : Nat} {u : Unit} (hi : Boxed L U W) (h : undoLowerVar v W = .ok (u, W')) : Boxed L U W' := by
  refine ⟨hi.1.undoLowerVar h, ?_⟩
  unfold Clingcon.undoLowerVar at h
  simp only [smok] at h
  obtain ⟨vs, W1, ⟨hv, rfl⟩, vs', W2, ⟨hp, rfl⟩, _, W3, rfl, rfl⟩ := h
  refine hi.2.vars ?_
  have hn := hi.2.get hv
  unfold VarState.popLower at hp
  split at hp
  · cases hp
  · rename_i k b st e
    injection hp with hp
    subst hp
    have := hn.low
    rw [e, List.map_cons] at this
    exact ⟨fun x hx => this x (List.mem_cons_of_mem _ hx), hn.upp⟩

theorem AllBox.undoUpperVar {v : Nat} {u : Unit} (hi : Boxed L U W) (h : undoUpperVar v W = .ok (u, W')) : Boxed L U W' := by
  refine ⟨hi.1.undoUpperVar h, ?_⟩
  unfold Clingcon.undoUpperVar at h
  simp only [smok] at h
  obtain ⟨vs, W1, ⟨hv, rfl⟩, vs', W2, ⟨hp, rfl⟩, _, W3, rfl, rfl⟩ := h
  refine hi.2.vars ?_
  have hn := hi.2.get hv
  unfold VarState.popUpper at hp
  split at hp
  · cases hp
  · rename_i k b st e
    injection hp with hp
    subst hp
    have := hn.upp
    rw [e, List.map_cons] at this
    exact ⟨hn.low, fun x hx => this x (List.mem_cons_of_mem _ hx)⟩

theorem boxed_prim : Prim (Boxed L U) where
  book _ _ _ h := h
  event _ _ _ h := h
  levels _ _ h := h
  clear _ h := h
  literal _ _ _ := AllBox.fr fr_getLiteral
  updLiteral _ _ _ _ := AllBox.fr fr_updateLiteral
  mkFact _ _ _ := AllBox.fr fr_makeFact
  drFact _ _ _ := AllBox.fr fr_dropFact
  step _ _ _ := AllBox.fr fr_updateStep
  updLower h hx hi := AllBox.updLower hi hx h
  updUpper h hx hi := AllBox.updUpper hi hx h
  popLower _ := ⟨fun _ _ _ h hi => AllBox.undoLowerVar hi h⟩
  popUpper _ := ⟨fun _ _ _ h hi => AllBox.undoUpperVar hi h⟩

theorem AllBox.exec {op : Op} {r : Bool} (hi : Boxed L U W) (hp : op.pre W) (hb : ∀ lo up, op = .addVar lo up → L ≤ lo ∧ up ≤ U)
    (h : op.exec W = .ok (r, W')) : Boxed L U W' := by
  have hn := hi.1.exec hp h
  have hP := boxed_prim (L := L) (U := U)
  cases op with
  | addVar lo up =>
    refine ⟨hn, ?_⟩
    unfold Op.exec at h
    simp only [discard_iff, bind_iff, pure_iff] at h
    obtain ⟨_, W1, ⟨a, h1⟩, -, rfl⟩ := h
    injection h1 with h1
    injection h1 with _ h1
    subst h1
    intro y hy
    simp only [frame, List.map_append, List.mem_append, List.map_cons, List.map_nil, List.mem_singleton] at hy
    rcases hy with hy | rfl
    · exact hi.2 y hy
    · obtain ⟨h1, h2⟩ := hb lo up rfl
      exact ⟨fun x hx => by simpa [VarState.bounds] using (by simpa [VarState.bounds] using hx : x = lo) ▸ h1,
        fun x hx => (by simpa [VarState.bounds] using hx : x = up) ▸ h2⟩
  | simple cc l co v r s => exact (AllBox.fr fr_addSimple).kw _ _ _ h hi
  | fresh => exact (AllBox.fr fr_fresh).kw _ _ _ h hi
  | post e => exact (AllBox.fr fr_post).kw _ _ _ h hi
  | _ => refine (kw_exec hP.toPrimU (fun W n h => h) ?_ ?_ ?_ ?_).kw _ _ _ h hi <;> intros <;> first | contradiction | (intro e; cases e)

/-- Bounds stay within limits if variables are added with bounds within limits. -/
theorem AllBox.run {ops : List Op} (h : Run ops W W') (hb : ∀ lo up, Op.addVar lo up ∈ ops → L ≤ lo ∧ up ≤ U) (hi : Boxed L U W) : Boxed L U W' := by
  induction h with
  | nil => exact hi
  | cons hp hx _ ih =>
    exact ih (fun lo up hm => hb lo up (List.mem_cons_of_mem _ hm)) (AllBox.exec hi hp (fun lo up e => hb lo up (e ▸ List.mem_cons_self ..)) hx)

/-! ### Machine arithmetic -/

theorem fits64 {x : Int} : Limits.sum.Fits x ↔ -9223372036854775808 ≤ x ∧ x ≤ 9223372036854775807 := by
  unfold Limits.Fits Limits.sum Limits.signed; norm_num
theorem fits32 {x : Int} : Limits.val.Fits x ↔ -2147483648 ≤ x ∧ x ≤ 2147483647 := by
  unfold Limits.Fits Limits.val Limits.signed; norm_num

theorem fit64_bind {x : Int} {f : Int → SM α} (h1 : -9223372036854775808 ≤ x) (h2 : x ≤ 9223372036854775807) : (fit64 x >>= f) W = f x W := by
  unfold fit64; rw [if_pos (fits64.mpr ⟨h1, h2⟩)]; rfl
theorem fit32_bind {x : Int} {f : Int → SM α} (h1 : -2147483648 ≤ x) (h2 : x ≤ 2147483647) : (fit32 x >>= f) W = f x W := by
  unfold fit32; rw [if_pos (fits32.mpr ⟨h1, h2⟩)]; rfl

theorem SM.bind_eq {x x' : SM α} {f f' : α → SM γ} (h : x W = x' W) (hf : ∀ a W1, x' W = .ok (a, W1) → f a W1 = f' a W1) :
    (x >>= f) W = (x' >>= f') W := by
  show Except.bind (x W) _ = Except.bind (x' W) _
  rw [h]
  cases hx : x' W with
  | error e => rfl
  | ok p => exact hf p.1 p.2 hx

theorem floordiv64_bind {n m : Int} {f : Int → SM α} (hm : m ≠ 0) (h1 : -9223372036854775807 ≤ n) (h2 : n ≤ 9223372036854775807) :
    (floordiv64 n m >>= f) W = f (floordiv n m) W := by
  have key : floordiv64 n m W = .ok (floordiv n m, W) := by
    obtain ⟨a1, a2, a3, a4, a5⟩ := tdiv_facts n m
    have hq : (n.tdiv m).natAbs ≤ n.natAbs := by rw [Int.natAbs_tdiv]; exact Nat.div_le_self _ _
    unfold floordiv64
    have hx : (assertS (decide (m ≠ 0)) : SM Unit) = pure () := by unfold assertS; rw [if_pos (by simpa using hm)]
    rw [hx]
    show (fit64 (n.tdiv m) >>= fun q => if ((decide (n < 0) ^^ decide (m < 0)) && n.tmod m != 0) = true then fit64 (q - 1) else pure q) W = _
    refine (fit64_bind (x := n.tdiv m) (by omega) (by omega)).trans ?_
    unfold floordiv
    split_ifs with hc
    · have hr : n.tmod m ≠ 0 := by simp only [Bool.and_eq_true] at hc; simpa using hc.2
      have h2 : 2 ≤ m.natAbs := by
        rcases lt_or_gt_of_ne hm with h | h
        · have := a5 h; omega
        · have := a4 h; omega
      have hq2 : (n.tdiv m).natAbs ≤ n.natAbs / 2 := by rw [Int.natAbs_tdiv]; exact Nat.div_le_div_left h2 (by omega)
      unfold fit64
      rw [if_pos (fits64.mpr ⟨by omega, by omega⟩)]
      rfl
    · rfl
  show Except.bind (floordiv64 n m W) _ = _
  rw [key]
  rfl


/-- Bounds of a variable within the limits of values. -/
theorem Boxed.get {v : Nat} {vs : VarState} (h : Boxed MIN_VAL MAX_VAL W) (hv : W.vars[v]? = some vs) :
    -1073741823 ≤ vs.minBound ∧ vs.minBound ≤ vs.lower ∧ vs.lower ≤ vs.upper ∧ vs.upper ≤ vs.maxBound ∧ vs.maxBound ≤ 1073741823 := by
  have hn := h.1.get hv
  have hb := h.2.get hv
  have e1 : MIN_VAL = -1073741823 := by decide
  have e2 : MAX_VAL = 1073741823 := by decide
  rw [e1, e2] at hb
  have l1 := hb.low vs.lower (List.mem_cons_self ..)
  have u1 := hb.upp vs.upper (List.mem_cons_self ..)
  refine ⟨?_, ?_, hn.le, ?_, ?_⟩
  · unfold VarState.minBound
    cases hs : vs.lowerStack.getLast? with
    | none => exact l1
    | some p => exact hb.low p.2 (List.mem_cons_of_mem _ (List.mem_map_of_mem (List.mem_of_getLast? hs)))
  · unfold VarState.minBound
    cases hs : vs.lowerStack.getLast? with
    | none => exact le_refl _
    | some p => exact (List.pairwise_cons.mp hn.low).1 p.2 (List.mem_map_of_mem (List.mem_of_getLast? hs))
  · unfold VarState.maxBound
    cases hs : vs.upperStack.getLast? with
    | none => exact le_refl _
    | some p => exact (List.pairwise_cons.mp hn.upp).1 p.2 (List.mem_map_of_mem (List.mem_of_getLast? hs))
  · unfold VarState.maxBound
    cases hs : vs.upperStack.getLast? with
    | none => exact u1
    | some p => exact hb.upp p.2 (List.mem_cons_of_mem _ (List.mem_map_of_mem (List.mem_of_getLast? hs)))

theorem refineLower64_eq {var : Nat} {co slack lr cur value : Int} (ht : TI W) (h1 : 0 < co) (h2 : co ≤ 1073741823) (h3 : -9223372036854775808 ≤ slack) (h4 : slack < 0)
    (h5 : -1073741823 ≤ value) (h6 : value < cur) (h7 : cur ≤ 1073741823) :
    refineLower64 cc var co slack lr cur value W = refineLower cc var co slack lr cur value W := by
  unfold refineLower64 refineLower
  refine SM.bind_eq rfl (fun vs W1 hv => ?_)
  obtain ⟨hv, rfl⟩ := getVar_iff.mp hv
  refine (fit32_bind (x := value - 1) (by omega) (by omega)).trans ?_
  cases ho : vs.orderLitGe (value - 1) with
  | none => rfl
  | some p =>
    obtain ⟨k, l⟩ := p
    obtain ⟨-, hk⟩ := orderLitGe_mem (ht.wf _ _ hv) ho
    dsimp only
    by_cases hc : k + 1 < cur
    · rw [if_pos hc, if_pos hc]
      have b1 : -(1073741823 * 2147483647) ≤ co * (k + 1 - cur) := by nlinarith
      have b2 : co * (k + 1 - cur) ≤ 0 := by nlinarith
      refine (fit64_bind (x := k + 1 - cur) (by omega) (by omega)).trans ?_
      refine (fit64_bind (x := co * (k + 1 - cur)) (by omega) (by omega)).trans ?_
      exact fit64_bind (x := slack - co * (k + 1 - cur)) (by omega) (by omega)
    · rw [if_neg hc, if_neg hc]

theorem refineLower_slack {var : Nat} {co slack lr cur value : Int} {p : Bool × Int × Int × Int} (ht : TI W) (h1 : 0 < co) (h4 : slack < 0) (h6 : value < cur)
    (h : refineLower cc var co slack lr cur value W = .ok (p, W')) : slack ≤ p.2.2.1 ∧ p.2.2.1 < 0 ∧ value ≤ p.2.2.2 ∧ p.2.2.2 ≤ cur := by
  unfold refineLower at h
  obtain ⟨vs, W1, hv, hA⟩ := SM.bind_ok h; clear h
  obtain ⟨hv, rfl⟩ := getVar_iff.mp hv
  cases ho : vs.orderLitGe (value - 1) with
  | none => rw [ho] at hA; obtain ⟨rfl, -⟩ := pure_iff.mp hA; exact ⟨le_refl _, h4, le_of_lt h6, le_refl _⟩
  | some q =>
    obtain ⟨k, l⟩ := q
    obtain ⟨-, hk⟩ := orderLitGe_mem (ht.wf _ _ hv) ho
    rw [ho] at hA
    simp only [smok] at hA
    rcases hA with ⟨hc, _, _, ⟨hs, rfl⟩, hx⟩ | ⟨-, rfl, -⟩
    · have b2 : co * (k + 1 - cur) ≤ 0 := by nlinarith
      have hs : slack - co * (k + 1 - cur) < 0 := by simpa using hs
      have key : slack ≤ slack - co * (k + 1 - cur) ∧ slack - co * (k + 1 - cur) < 0 ∧ value ≤ k + 1 ∧ k + 1 ≤ cur := ⟨by omega, hs, by omega, by omega⟩
      obtain ⟨b, W3, -, h⟩ := hx
      rcases h with ⟨-, rfl, -⟩ | ⟨-, h⟩
      · exact key
      · obtain ⟨b2, W4, h4, -, W5, h5, r, W6, ⟨h6, rfl⟩, rfl, rfl⟩ := h
        exact key
    · exact ⟨le_refl _, h4, le_of_lt h6, le_refl _⟩

theorem introduceLower64_eq {var : Nat} {co value : Int} {p : Bool × Int × Int × Int} (h1 : 0 < co) (h2 : co ≤ 1073741823) (h3 : -9223372036854775808 ≤ p.2.2.1) (h4 : p.2.2.1 < 0)
    (h5 : -1073741823 ≤ value) (h7 : p.2.2.2 ≤ 1073741823) : introduceLower64 cc var co value p W = introduceLower cc var co value p W := by
  unfold introduceLower64 introduceLower
  refine SM.bind_eq rfl (fun ll W1 _ => ?_)
  split_ifs with hc
  · simp only [Bool.and_eq_true, decide_eq_true_eq] at hc
    have hc := hc.2
    have b1 : -(1073741823 * 2147483647) ≤ co * (value - p.2.2.2) := by nlinarith
    have b2 : co * (value - p.2.2.2) ≤ 0 := by nlinarith
    refine (fit64_bind (x := value - p.2.2.2) (by omega) (by omega)).trans ?_
    refine (fit64_bind (x := co * (value - p.2.2.2)) (by omega) (by omega)).trans ?_
    refine (fit64_bind (x := p.2.2.1 - co * (value - p.2.2.2)) (by omega) (by omega)).trans ?_
    refine SM.bind_eq rfl (fun _ W1 _ => ?_)
    exact fit32_bind (x := value - 1) (by omega) (by omega)
  · rfl

theorem introduceLower_slack {var : Nat} {co value : Int} {p : Bool × Int × Int × Int} {q : Bool × Int × Int} (h1 : 0 < co) (h4 : p.2.2.1 < 0)
    (h : introduceLower cc var co value p W = .ok (q, W')) : p.2.2.1 ≤ q.2.2 ∧ q.2.2 < 0 := by
  unfold introduceLower at h
  simp only [smok] at h
  obtain ⟨ll, W1, ⟨rfl, rfl⟩, h⟩ := h
  rcases h with ⟨hc, -, W2, ⟨hs, rfl⟩, l, W3, -, b, W4, ⟨-, rfl⟩, -, W5, ⟨-, rfl⟩, b2, W6, ⟨-, rfl⟩, h⟩ | ⟨-, rfl, rfl⟩
  · have hc : value < p.2.2.2 := by simp only [Bool.and_eq_true, decide_eq_true_eq] at hc; exact hc.2
    have b2 : co * (value - p.2.2.2) ≤ 0 := by nlinarith
    have hs : p.2.2.1 - co * (value - p.2.2.2) < 0 := by simpa using hs
    have key : p.2.2.1 ≤ p.2.2.1 - co * (value - p.2.2.2) ∧ p.2.2.1 - co * (value - p.2.2.2) < 0 := ⟨by omega, hs⟩
    rcases h with ⟨-, rfl, -⟩ | ⟨-, r, W6, ⟨h6, rfl⟩, rfl, rfl⟩
    · exact key
    · exact key
  · exact ⟨le_refl _, h4⟩

/-- The quotient in the reason for a lower bound. -/
theorem quot_lower {co slack : Int} (h1 : 0 < co) (h4 : slack < 0) : 0 ≤ floordiv (slack + 1) (-co) ∧ floordiv (slack + 1) (-co) * co ≤ -(slack + 1) := by
  obtain ⟨-, h⟩ := floordiv_bounds (slack + 1) (-co) (by omega)
  obtain ⟨a, b⟩ := h (by omega)
  constructor
  · by_contra hc
    have : floordiv (slack + 1) (-co) + 1 ≤ 0 := by omega
    nlinarith
  · nlinarith

theorem reasonLower64_eq {var : Nat} {co slack : Int} (ht : TI W) (hb : Boxed MIN_VAL MAX_VAL W) (h1 : 0 < co) (h2 : co ≤ 1073741823) (h3 : -9223372036854775808 ≤ slack) (h4 : slack < 0)
    (h5 : co = 1 → ∀ vs, W.vars[var]? = some vs → -9223372036854775808 ≤ vs.lower + slack + 1) :
    reasonLower64 cc var co slack W = reasonLower cc var co slack W := by
  unfold reasonLower64 reasonLower
  refine SM.bind_eq rfl (fun vs W1 hv => ?_)
  obtain ⟨hv, rfl⟩ := getVar_iff.mp hv
  obtain ⟨n1, n2, n3, n4, n5⟩ := hb.get hv
  refine (fit32_bind (x := vs.lower - 1) (by omega) (by omega)).trans ?_
  refine SM.bind_eq rfl (fun lr W2 hl => ?_)
  have ht2 := (ti_prim.literal _ _ _).kw _ _ _ hl ht
  clear hl
  refine SM.bind_eq rfl (fun f W3 hf => ?_)
  obtain ⟨-, rfl⟩ := qFalse_iff.mp hf
  refine SM.bind_eq rfl (fun f W4 hf => ?_)
  obtain ⟨-, rfl⟩ := assertS_iff.mp hf
  obtain ⟨q1, q2⟩ := quot_lower h1 h4
  have q3 : floordiv (slack + 1) (-co) ≤ -(slack + 1) := by nlinarith
  have hq : -9223372036854775808 ≤ vs.lower - floordiv (slack + 1) (-co) := by
    rcases (by omega : co = 1 ∨ 2 ≤ co) with rfl | hc
    · have := h5 rfl vs hv; omega
    · have : floordiv (slack + 1) (-co) * 2 ≤ -(slack + 1) := by nlinarith
      omega
  by_cases c1 : cc.conf.refineReasons = true
  · rw [if_pos c1]
    refine (fit64_bind (x := slack + co) (by omega) (by omega)).trans ?_
    by_cases c2 : (decide (slack + co < 0) && decide (cc.level > 0)) = true
    · rw [if_pos c2]
      refine (fit64_bind (x := slack + 1) (by omega) (by omega)).trans ?_
      refine (fit32_bind (x := -co) (by omega) (by omega)).trans ?_
      refine (floordiv64_bind (by omega) (by omega) (by omega)).trans ?_
      refine (fit64_bind (x := -floordiv (slack + 1) (-co)) (by omega) (by omega)).trans ?_
      refine (fit64_bind (x := vs.lower + -floordiv (slack + 1) (-co)) (by omega) (by omega)).trans ?_
      by_cases c3 : max (vs.lower + -floordiv (slack + 1) (-co)) vs.minBound < vs.lower
      · rw [if_pos c3, if_pos (by rw [c1]; simp only [Bool.and_eq_true, decide_eq_true_eq] at c2 ⊢; exact ⟨⟨⟨trivial, c2.1⟩, c2.2⟩, c3⟩)]
        have hm := le_max_right (vs.lower + -floordiv (slack + 1) (-co)) vs.minBound
        refine SM.bind_eq (refineLower64_eq ht2 h1 h2 h3 h4 (by omega) c3 (by omega)) (fun p W5 hp => ?_)
        obtain ⟨r1, r2, r3, r4⟩ := refineLower_slack ht2 h1 h4 c3 hp
        exact introduceLower64_eq h1 h2 (by omega) r2 (by omega) (by omega)
      · rw [if_neg c3, if_neg (by simp only [Bool.and_eq_true, decide_eq_true_eq]; exact fun h => c3 h.2)]
    · rw [if_neg c2, if_neg (by simp only [Bool.and_eq_true, decide_eq_true_eq] at c2 ⊢; exact fun h => c2 ⟨h.1.1.2, h.1.2⟩)]
  · rw [if_neg c1, if_neg (by simp only [Bool.and_eq_true]; exact fun h => c1 h.1.1.1)]

theorem reasonLower_slack {var : Nat} {co slack : Int} {q : Bool × Int × Int} (ht : TI W) (h1 : 0 < co) (h4 : slack < 0)
    (h : reasonLower cc var co slack W = .ok (q, W')) : slack ≤ q.2.2 ∧ q.2.2 < 0 := by
  unfold reasonLower at h
  obtain ⟨vs, W1, hv, hA⟩ := SM.bind_ok h; clear h
  obtain ⟨hv, rfl⟩ := getVar_iff.mp hv
  obtain ⟨lr, W2, hl, hB⟩ := SM.bind_ok hA; clear hA
  have ht2 := (ti_prim.literal _ _ _).kw _ _ _ hl ht
  clear hl
  obtain ⟨f, W3, hf, hC⟩ := SM.bind_ok hB; clear hB
  obtain ⟨-, rfl⟩ := qFalse_iff.mp hf
  obtain ⟨u, W4, hf, hD⟩ := SM.bind_ok hC; clear hC
  obtain ⟨-, rfl⟩ := assertS_iff.mp hf
  dsimp only at hD
  split_ifs at hD with hc
  · obtain ⟨p, W5, hp, hE⟩ := SM.bind_ok hD
    simp only [Bool.and_eq_true, decide_eq_true_eq] at hc
    obtain ⟨r1, r2, r3, r4⟩ := refineLower_slack ht2 h1 h4 hc.2 hp
    obtain ⟨s1, s2⟩ := introduceLower_slack h1 r2 hE
    exact ⟨by omega, s2⟩
  · obtain ⟨rfl, -⟩ := pure_iff.mp hD
    exact ⟨le_refl _, h4⟩

theorem refineUpper64_eq {var : Nat} {co slack lr cur value : Int} (ht : TI W) (h1 : co < 0) (h2 : -1073741823 ≤ co) (h3 : -9223372036854775808 ≤ slack) (h4 : slack < 0)
    (h5 : value ≤ 1073741823) (h6 : cur < value) (h7 : -1073741823 ≤ cur) :
    refineUpper64 cc var co slack lr cur value W = refineUpper cc var co slack lr cur value W := by
  unfold refineUpper64 refineUpper
  refine SM.bind_eq rfl (fun vs W1 hv => ?_)
  obtain ⟨hv, rfl⟩ := getVar_iff.mp hv
  refine (fit32_bind (x := value) (by omega) (by omega)).trans ?_
  cases ho : vs.orderLitLe value with
  | none => rfl
  | some p =>
    obtain ⟨k, l⟩ := p
    obtain ⟨-, hk⟩ := orderLitLe_mem (ht.wf _ _ hv) ho
    dsimp only
    by_cases hc : k > cur
    · rw [if_pos hc, if_pos hc]
      have b1 : -(1073741823 * 2147483647) ≤ co * (k - cur) := by nlinarith
      have b2 : co * (k - cur) ≤ 0 := by nlinarith
      refine (fit64_bind (x := k - cur) (by omega) (by omega)).trans ?_
      refine (fit64_bind (x := co * (k - cur)) (by omega) (by omega)).trans ?_
      exact fit64_bind (x := slack - co * (k - cur)) (by omega) (by omega)
    · rw [if_neg hc, if_neg hc]

theorem refineUpper_slack {var : Nat} {co slack lr cur value : Int} {p : Bool × Int × Int × Int} (ht : TI W) (h1 : co < 0) (h4 : slack < 0) (h6 : cur < value)
    (h : refineUpper cc var co slack lr cur value W = .ok (p, W')) : slack ≤ p.2.2.1 ∧ p.2.2.1 < 0 ∧ p.2.2.2 ≤ value ∧ cur ≤ p.2.2.2 := by
  unfold refineUpper at h
  obtain ⟨vs, W1, hv, hA⟩ := SM.bind_ok h; clear h
  obtain ⟨hv, rfl⟩ := getVar_iff.mp hv
  cases ho : vs.orderLitLe value with
  | none => rw [ho] at hA; obtain ⟨rfl, -⟩ := pure_iff.mp hA; exact ⟨le_refl _, h4, le_of_lt h6, le_refl _⟩
  | some q =>
    obtain ⟨k, l⟩ := q
    obtain ⟨-, hk⟩ := orderLitLe_mem (ht.wf _ _ hv) ho
    rw [ho] at hA
    simp only [smok] at hA
    rcases hA with ⟨hc, _, _, ⟨hs, rfl⟩, hx⟩ | ⟨-, rfl, -⟩
    · have b2 : co * (k - cur) ≤ 0 := by nlinarith
      have hs : slack - co * (k - cur) < 0 := by simpa using hs
      have key : slack ≤ slack - co * (k - cur) ∧ slack - co * (k - cur) < 0 ∧ k ≤ value ∧ cur ≤ k := ⟨by omega, hs, by omega, by omega⟩
      obtain ⟨b, W3, -, h⟩ := hx
      rcases h with ⟨-, rfl, -⟩ | ⟨-, h⟩
      · exact key
      · obtain ⟨b2, W4, h4, -, W5, h5, r, W6, ⟨h6, rfl⟩, rfl, rfl⟩ := h
        exact key
    · exact ⟨le_refl _, h4, le_of_lt h6, le_refl _⟩

theorem introduceUpper64_eq {var : Nat} {co value : Int} {p : Bool × Int × Int × Int} (h1 : co < 0) (h2 : -1073741823 ≤ co) (h3 : -9223372036854775808 ≤ p.2.2.1) (h4 : p.2.2.1 < 0)
    (h5 : value ≤ 1073741823) (h7 : -1073741823 ≤ p.2.2.2) : introduceUpper64 cc var co value p W = introduceUpper cc var co value p W := by
  unfold introduceUpper64 introduceUpper
  refine SM.bind_eq rfl (fun ll W1 _ => ?_)
  split_ifs with hc
  · simp only [Bool.and_eq_true, decide_eq_true_eq] at hc
    have hc := hc.2
    have b1 : -(1073741823 * 2147483647) ≤ co * (value - p.2.2.2) := by nlinarith
    have b2 : co * (value - p.2.2.2) ≤ 0 := by nlinarith
    refine (fit64_bind (x := value - p.2.2.2) (by omega) (by omega)).trans ?_
    refine (fit64_bind (x := co * (value - p.2.2.2)) (by omega) (by omega)).trans ?_
    refine (fit64_bind (x := p.2.2.1 - co * (value - p.2.2.2)) (by omega) (by omega)).trans ?_
    refine SM.bind_eq rfl (fun _ W1 _ => ?_)
    exact fit32_bind (x := value) (by omega) (by omega)
  · rfl

theorem introduceUpper_slack {var : Nat} {co value : Int} {p : Bool × Int × Int × Int} {q : Bool × Int × Int} (h1 : co < 0) (h4 : p.2.2.1 < 0)
    (h : introduceUpper cc var co value p W = .ok (q, W')) : p.2.2.1 ≤ q.2.2 ∧ q.2.2 < 0 := by
  unfold introduceUpper at h
  simp only [smok] at h
  obtain ⟨ll, W1, ⟨rfl, rfl⟩, h⟩ := h
  rcases h with ⟨hc, -, W2, ⟨hs, rfl⟩, l, W3, -, b, W4, ⟨-, rfl⟩, -, W5, ⟨-, rfl⟩, b2, W6, ⟨-, rfl⟩, h⟩ | ⟨-, rfl, rfl⟩
  · have hc : value > p.2.2.2 := by simp only [Bool.and_eq_true, decide_eq_true_eq] at hc; exact hc.2
    have b2 : co * (value - p.2.2.2) ≤ 0 := by nlinarith
    have hs : p.2.2.1 - co * (value - p.2.2.2) < 0 := by simpa using hs
    have key : p.2.2.1 ≤ p.2.2.1 - co * (value - p.2.2.2) ∧ p.2.2.1 - co * (value - p.2.2.2) < 0 := ⟨by omega, hs⟩
    rcases h with ⟨-, rfl, -⟩ | ⟨-, r, W6, ⟨h6, rfl⟩, rfl, rfl⟩
    · exact key
    · exact key
  · exact ⟨le_refl _, h4⟩

theorem quot_upper {co slack : Int} (h1 : co < 0) (h4 : slack < 0) : 0 ≤ floordiv (slack + 1) co ∧ floordiv (slack + 1) co * (-co) ≤ -(slack + 1) := by
  have := quot_lower (co := -co) (slack := slack) (by omega) h4
  rwa [neg_neg] at this

theorem reasonUpper64_eq {var : Nat} {co slack : Int} (ht : TI W) (hb : Boxed MIN_VAL MAX_VAL W) (h1 : co < 0) (h2 : -1073741823 ≤ co) (h3 : -9223372036854775808 ≤ slack) (h4 : slack < 0)
    (h5 : co = -1 → ∀ vs, W.vars[var]? = some vs → vs.upper - slack - 1 ≤ 9223372036854775807) :
    reasonUpper64 cc var co slack W = reasonUpper cc var co slack W := by
  unfold reasonUpper64 reasonUpper
  refine SM.bind_eq rfl (fun vs W1 hv => ?_)
  obtain ⟨hv, rfl⟩ := getVar_iff.mp hv
  obtain ⟨n1, n2, n3, n4, n5⟩ := hb.get hv
  refine (fit32_bind (x := vs.upper) (by omega) (by omega)).trans ?_
  refine SM.bind_eq rfl (fun lr W2 hl => ?_)
  have ht2 := (ti_prim.literal _ _ _).kw _ _ _ hl ht
  clear hl
  refine SM.bind_eq rfl (fun f W3 hf => ?_)
  obtain ⟨-, rfl⟩ := qFalse_iff.mp hf
  refine SM.bind_eq rfl (fun f W4 hf => ?_)
  obtain ⟨-, rfl⟩ := assertS_iff.mp hf
  obtain ⟨q1, q2⟩ := quot_upper h1 h4
  have hq : vs.upper + floordiv (slack + 1) co ≤ 9223372036854775807 := by
    rcases (by omega : co = -1 ∨ co ≤ -2) with rfl | hc
    · have := h5 rfl vs hv; omega
    · have : floordiv (slack + 1) co * 2 ≤ -(slack + 1) := by nlinarith
      omega
  by_cases c1 : cc.conf.refineReasons = true
  · rw [if_pos c1]
    refine (fit64_bind (x := slack - co) (by omega) (by omega)).trans ?_
    by_cases c2 : (decide (slack - co < 0) && decide (cc.level > 0)) = true
    · rw [if_pos c2]
      refine (fit64_bind (x := slack + 1) (by omega) (by omega)).trans ?_
      refine (floordiv64_bind (by omega) (by omega) (by omega)).trans ?_
      refine (fit64_bind (x := vs.upper + floordiv (slack + 1) co) (by omega) (by omega)).trans ?_
      by_cases c3 : min (vs.upper + floordiv (slack + 1) co) vs.maxBound > vs.upper
      · rw [if_pos c3, if_pos (by rw [c1]; simp only [Bool.and_eq_true, decide_eq_true_eq] at c2 ⊢; exact ⟨⟨⟨trivial, c2.1⟩, c2.2⟩, c3⟩)]
        have hm := min_le_right (vs.upper + floordiv (slack + 1) co) vs.maxBound
        refine SM.bind_eq (refineUpper64_eq ht2 h1 h2 h3 h4 (by omega) c3 (by omega)) (fun p W5 hp => ?_)
        obtain ⟨r1, r2, r3, r4⟩ := refineUpper_slack ht2 h1 h4 c3 hp
        exact introduceUpper64_eq h1 h2 (by omega) r2 (by omega) (by omega)
      · rw [if_neg c3, if_neg (by simp only [Bool.and_eq_true, decide_eq_true_eq]; exact fun h => c3 h.2)]
    · rw [if_neg c2, if_neg (by simp only [Bool.and_eq_true, decide_eq_true_eq] at c2 ⊢; exact fun h => c2 ⟨h.1.1.2, h.1.2⟩)]
  · rw [if_neg c1, if_neg (by simp only [Bool.and_eq_true]; exact fun h => c1 h.1.1.1)]

theorem reasonUpper_slack {var : Nat} {co slack : Int} {q : Bool × Int × Int} (ht : TI W) (h1 : co < 0) (h4 : slack < 0)
    (h : reasonUpper cc var co slack W = .ok (q, W')) : slack ≤ q.2.2 ∧ q.2.2 < 0 := by
  unfold reasonUpper at h
  obtain ⟨vs, W1, hv, hA⟩ := SM.bind_ok h; clear h
  obtain ⟨hv, rfl⟩ := getVar_iff.mp hv
  obtain ⟨lr, W2, hl, hB⟩ := SM.bind_ok hA; clear hA
  have ht2 := (ti_prim.literal _ _ _).kw _ _ _ hl ht
  clear hl
  obtain ⟨f, W3, hf, hC⟩ := SM.bind_ok hB; clear hB
  obtain ⟨-, rfl⟩ := qFalse_iff.mp hf
  obtain ⟨u, W4, hf, hD⟩ := SM.bind_ok hC; clear hC
  obtain ⟨-, rfl⟩ := assertS_iff.mp hf
  dsimp only at hD
  split_ifs at hD with hc
  · obtain ⟨p, W5, hp, hE⟩ := SM.bind_ok hD
    simp only [Bool.and_eq_true, decide_eq_true_eq] at hc
    obtain ⟨r1, r2, r3, r4⟩ := refineUpper_slack ht2 h1 h4 hc.2 hp
    obtain ⟨s1, s2⟩ := introduceUpper_slack h1 r2 hE
    exact ⟨by omega, s2⟩
  · obtain ⟨rfl, -⟩ := pure_iff.mp hD
    exact ⟨le_refl _, h4⟩

/-- An element of a sum for which reasons can be computed if the slack is at least `s`. -/
structure SlackElem (lo up : Nat → Int) (s : Int) (e : Int × Nat) : Prop where
  ne : e.1 ≠ 0
  low : -1073741823 ≤ e.1
  upp : e.1 ≤ 1073741823
  one : e.1 = 1 → -9223372036854775808 ≤ lo e.2 + s + 1
  neg : e.1 = -1 → up e.2 - s - 1 ≤ 9223372036854775807

theorem calculateReason64_eq {var : Nat} {co s slack : Int} (ht : TI W) (hb : Boxed MIN_VAL MAX_VAL W) (he : SlackElem (loF (frame W)) (upF (frame W)) s (co, var))
    (h3 : -9223372036854775808 ≤ s) (hs : s ≤ slack) (h4 : slack < 0) : calculateReason64 cc var co slack W = calculateReason cc var co slack W := by
  unfold calculateReason64 calculateReason
  refine SM.bind_eq ?_ (fun _ _ _ => rfl)
  obtain ⟨e0, e1, e2, e3, e4⟩ := he
  dsimp only at e0 e1 e2 e3 e4
  split_ifs with hc
  · refine reasonLower64_eq ht hb hc e2 (by omega) h4 (fun h vs hv => ?_)
    have := e3 h
    rw [show loF (frame W) var = vs.lower by unfold loF frame; dsimp only; rw [List.getElem?_map, hv]; rfl] at this
    omega
  · refine reasonUpper64_eq ht hb (by omega) e1 (by omega) h4 (fun h vs hv => ?_)
    have := e4 h
    rw [show upF (frame W) var = vs.upper by unfold upF frame; dsimp only; rw [List.getElem?_map, hv]; rfl] at this
    omega

theorem calculateReason_slack {var : Nat} {co slack : Int} {q : Bool × Int × Int} (ht : TI W) (h0 : co ≠ 0) (h4 : slack < 0)
    (h : calculateReason cc var co slack W = .ok (q, W')) : slack ≤ q.2.2 ∧ q.2.2 < 0 := by
  unfold calculateReason at h
  obtain ⟨p, W1, h1, hA⟩ := SM.bind_ok h; clear h
  simp only [smok] at hA
  obtain ⟨f, W2, ⟨rfl, rfl⟩, -, W3, ⟨-, rfl⟩, rfl, rfl⟩ := hA
  split_ifs at h1 with hc
  · exact reasonLower_slack ht hc h4 h1
  · exact reasonUpper_slack ht (by omega) h4 h1

theorem sumReason64_eq {skip : Option Nat} {lo up : Nat → Int} {s : Int} (h3 : -9223372036854775808 ≤ s) : ∀ {es : List (Int × Nat)} {slack : Int} {reason : List Int} {W : World},
    TI W → Boxed MIN_VAL MAX_VAL W → loF (frame W) = lo → upF (frame W) = up → (∀ e ∈ es, SlackElem lo up s e) → s ≤ slack → slack < 0 →
    sumReason64 cc skip es slack reason W = sumReason cc skip es slack reason W := by
  intro es
  induction es with
  | nil => intros; rfl
  | cons e es ih =>
    intro slack reason W ht hb hl hu he hs h4
    obtain ⟨co, var⟩ := e
    have he' : ∀ e ∈ es, SlackElem lo up s e := fun e h => he e (List.mem_cons_of_mem _ h)
    have h0 := he (co, var) (List.mem_cons_self ..)
    unfold sumReason64 sumReason
    split_ifs with hc
    · exact ih ht hb hl hu he' hs h4
    · refine SM.bind_eq (calculateReason64_eq ht hb (by rw [hl, hu]; exact h0) h3 hs h4) (fun p W1 hp => ?_)
      obtain ⟨s1, s2⟩ := calculateReason_slack ht h0.ne h4 hp
      have ht1 := (kw_calculateReason ti_prim.toPrim0).kw _ _ _ hp ht
      have hb1 := (kw_calculateReason boxed_prim.toPrim0).kw _ _ _ hp hb
      have hf := fr_calculateReason.fr _ _ _ hp
      split_ifs
      · rfl
      · refine SM.bind_eq rfl (fun r W2 hr => ?_)
        have ht2 := (kw_pushReason ti_prim.toPrim0).kw _ _ _ hr ht1
        have hb2 := (kw_pushReason boxed_prim.toPrim0).kw _ _ _ hr hb1
        have hf2 := fr_pushReason.fr _ _ _ hr
        exact ih ht2 hb2 (by rw [hf2, hf]; exact hl) (by rw [hf2, hf]; exact hu) he' (by omega) s2

/-- An element of a sum for which the first violating value can be computed if the slack is `s`. -/
structure SlackRoom (lo up : Nat → Int) (s : Int) (e : Int × Nat) : Prop where
  one : e.1 = 1 → lo e.2 + s + 1 ≤ 9223372036854775807
  neg : e.1 = -1 → -9223372036854775808 ≤ up e.2 - s - 1

theorem sumDerive64_eq {t : Bool} {clit slack value : Int} {es : List (Int × Nat)} {var : Nat} {n : Bool} (ht : TI W) (hb : Boxed MIN_VAL MAX_VAL W)
    (he : ∀ e ∈ es, e.1 ≠ 0 ∧ -1073741823 ≤ e.1 ∧ e.1 ≤ 1073741823) (h3 : -1073741823 ≤ slack) :
    sumDerive64 cc t clit es var slack value n W = sumDerive cc t clit es var slack value n W := by
  unfold sumDerive64 sumDerive
  refine SM.bind_eq rfl (fun u W1 hu => ?_)
  obtain ⟨hn, rfl⟩ := assertS_iff.mp hu
  have hn : slack < 0 := by simpa using hn
  refine SM.bind_eq rfl (fun r W2 hr => ?_)
  have ht2 := (kw_pushReason ti_prim.toPrim0).kw _ _ _ hr ht
  have hb2 := (kw_pushReason boxed_prim.toPrim0).kw _ _ _ hr hb
  refine SM.bind_eq ?_ (fun _ _ _ => rfl)
  refine sumReason64_eq (s := -1073741823) (by omega) ht2 hb2 rfl rfl (fun e h => ?_) h3 hn
  obtain ⟨e1, e2, e3⟩ := he e h
  have hx : -1073741823 ≤ loF (frame W2) e.2 ∧ upF (frame W2) e.2 ≤ 1073741823 := by
    unfold loF upF frame
    dsimp only
    rw [List.getElem?_map]
    cases hv : W2.vars[e.2]? with
    | none => exact ⟨by show (-1073741823 : Int) ≤ 0; omega, by show (0 : Int) ≤ 1073741823; omega⟩
    | some vs =>
      obtain ⟨n1, n2, n3, n4, n5⟩ := hb2.get hv
      exact ⟨by show _ ≤ vs.lower; omega, by show vs.upper ≤ _; omega⟩
  exact ⟨e1, e2, e3, fun _ => by omega, fun _ => by omega⟩

theorem sumConsequence64_eq {t : Bool} {clit slack co delta value : Int} {es : List (Int × Nat)} {var : Nat} {n : Bool} (ht : TI W) (hb : Boxed MIN_VAL MAX_VAL W)
    (he : ∀ e ∈ es, e.1 ≠ 0 ∧ -1073741823 ≤ e.1 ∧ e.1 ≤ 1073741823) (h3 : -1073741823 ≤ slack - co * delta)
    (h1 : -9223372036854775808 ≤ co * delta) (h2 : co * delta ≤ 9223372036854775807) (h4 : slack - co * delta ≤ 9223372036854775807) :
    sumConsequence64 cc t clit es var slack co delta value n W = sumConsequence cc t clit es var (slack - co * delta) value n W := by
  unfold sumConsequence64 sumConsequence
  refine SM.bind_eq rfl (fun l W1 hl => ?_)
  have ht1 := (kw_hasOrder ti_prim.toPrim0).kw _ _ _ hl ht
  have hb1 := (kw_hasOrder boxed_prim.toPrim0).kw _ _ _ hl hb
  refine SM.bind_eq rfl (fun q W2 hq => ?_)
  have ht2 := (kw_needReason ti_prim.toPrim0).kw _ _ _ hq ht1
  have hb2 := (kw_needReason boxed_prim.toPrim0).kw _ _ _ hq hb1
  split_ifs
  · refine (fit64_bind (x := co * delta) h1 h2).trans ?_
    refine (fit64_bind (x := slack - co * delta) (by omega) h4).trans ?_
    exact sumDerive64_eq ht2 hb2 he h3
  · rfl

theorem sumStep64_eq {t : Bool} {clit slack co : Int} {es : List (Int × Nat)} {var : Nat} (ht : TI W) (hb : Boxed MIN_VAL MAX_VAL W)
    (he : ∀ e ∈ es, e.1 ≠ 0 ∧ -1073741823 ≤ e.1 ∧ e.1 ≤ 1073741823) (h0 : co ≠ 0) (h1 : -1073741823 ≤ co) (h2 : co ≤ 1073741823)
    (h3 : 0 ≤ slack) (h4 : slack ≤ 9223372036854775806) (hr : SlackRoom (loF (frame W)) (upF (frame W)) slack (co, var)) :
    sumStep64 cc t clit es slack co var W = sumStep cc t clit es slack co var W := by
  unfold sumStep64 sumStep
  refine SM.bind_eq rfl (fun vs W1 hv => ?_)
  obtain ⟨hv, rfl⟩ := getVar_iff.mp hv
  obtain ⟨n1, n2, n3, n4, n5⟩ := hb.get hv
  have el : loF (frame W1) var = vs.lower := by unfold loF frame; dsimp only; rw [List.getElem?_map, hv]; rfl
  have eu : upF (frame W1) var = vs.upper := by unfold upF frame; dsimp only; rw [List.getElem?_map, hv]; rfl
  obtain ⟨r1, r2⟩ := hr
  dsimp only at r1 r2
  rw [el] at r1
  rw [eu] at r2
  split_ifs with hc
  · obtain ⟨-, h⟩ := floordiv_bounds (slack + 1) (-co) (by omega)
    obtain ⟨a, b⟩ := h (by omega)
    have q1 : floordiv (slack + 1) (-co) < 0 := by
      by_contra hx
      have : 0 ≤ floordiv (slack + 1) (-co) := by omega
      nlinarith
    generalize hq : floordiv (slack + 1) (-co) = q at *
    have q2 : -(slack + 1) ≤ q := by
      by_contra hx
      have : q + 1 ≤ -(slack + 1) := by omega
      nlinarith
    have q3 : vs.lower - q ≤ 9223372036854775807 := by
      rcases (by omega : co = 1 ∨ 2 ≤ co) with rfl | hc
      · have := r1 rfl
        omega
      · have : (-q - 1) * 2 ≤ slack + 1 := by nlinarith
        omega
    refine (fit64_bind (x := slack + 1) (by omega) (by omega)).trans ?_
    refine (fit32_bind (x := -co) (by omega) (by omega)).trans ?_
    refine (floordiv64_bind (by omega) (by omega) (by omega)).trans ?_
    rw [hq]
    refine (fit64_bind (x := -q) (by omega) (by omega)).trans ?_
    refine (fit64_bind (x := vs.lower + -q) (by omega) (by omega)).trans ?_
    refine SM.bind_eq rfl (fun u W2 hu => ?_)
    obtain ⟨-, rfl⟩ := assertS_iff.mp hu
    split_ifs with hd
    · rfl
    · refine (fit32_bind (x := vs.lower + -q - 1) (by omega) (by omega)).trans ?_
      have c1 : co * -q ≤ 1073741823 * 2147483647 := by nlinarith
      have c2 : 0 ≤ co * -q := by nlinarith
      exact sumConsequence64_eq ht hb he (by nlinarith) (by omega) (by omega) (by omega)
  · have hc : co < 0 := by omega
    obtain ⟨-, h⟩ := floordiv_bounds (slack + 1) co (by omega)
    obtain ⟨a, b⟩ := h (by omega)
    have q1 : floordiv (slack + 1) co < 0 := by
      by_contra hx
      have : 0 ≤ floordiv (slack + 1) co := by omega
      nlinarith
    generalize hq : floordiv (slack + 1) co = q at *
    have q3 : -9223372036854775808 ≤ vs.upper + q := by
      rcases (by omega : co = -1 ∨ co ≤ -2) with rfl | hc
      · have := r2 rfl
        omega
      · have : (-q - 1) * 2 ≤ slack + 1 := by nlinarith
        omega
    refine (fit64_bind (x := slack + 1) (by omega) (by omega)).trans ?_
    refine (floordiv64_bind (by omega) (by omega) (by omega)).trans ?_
    rw [hq]
    refine (fit64_bind (x := vs.upper + q) (by omega) (by omega)).trans ?_
    refine SM.bind_eq rfl (fun u W2 hu => ?_)
    obtain ⟨-, rfl⟩ := assertS_iff.mp hu
    split_ifs with hd
    · rfl
    · refine (fit32_bind (x := vs.upper + q) (by omega) (by omega)).trans ?_
      have c1 : co * q ≤ 1073741823 * 2147483647 := by nlinarith
      have c2 : 0 ≤ co * q := by nlinarith
      exact sumConsequence64_eq ht hb he (by nlinarith) (by omega) (by omega) (by omega)

theorem sumLoop64_eq {t : Bool} {clit slack : Int} {elems : List (Int × Nat)} {lo up : Nat → Int}
    (he : ∀ e ∈ elems, e.1 ≠ 0 ∧ -1073741823 ≤ e.1 ∧ e.1 ≤ 1073741823) (h3 : 0 ≤ slack) (h4 : slack ≤ 9223372036854775806) :
    ∀ {es : List (Int × Nat)} {W : World}, TI W → Boxed MIN_VAL MAX_VAL W → loF (frame W) = lo → upF (frame W) = up → (∀ e ∈ es, e ∈ elems ∧ SlackRoom lo up slack e) →
    sumLoop64 cc t clit elems slack es W = sumLoop cc t clit elems slack es W := by
  intro es
  induction es with
  | nil => intros; rfl
  | cons e es ih =>
    intro W ht hb hl hu hr
    obtain ⟨co, var⟩ := e
    obtain ⟨hm, hr0⟩ := hr (co, var) (List.mem_cons_self ..)
    obtain ⟨e0, e1, e2⟩ := he _ hm
    unfold sumLoop64 sumLoop
    refine SM.bind_eq (sumStep64_eq ht hb he e0 e1 e2 h3 h4 (by rw [hl, hu]; exact hr0)) (fun b W1 h1 => ?_)
    have hf := fr_sumStep.fr _ _ _ h1
    split_ifs
    · rfl
    · exact ih ((kw_sumStep ti_prim.toPrim0).kw _ _ _ h1 ht) ((kw_sumStep boxed_prim.toPrim0).kw _ _ _ h1 hb) (by rw [hf]; exact hl) (by rw [hf]; exact hu)
        (fun e h => hr e (List.mem_cons_of_mem _ h))

/-- The largest absolute value of a sum for values within limits. -/
def reach64 : List (Int × Nat) → Int
  | [] => 0
  | e :: es => |e.1| * 1073741823 + reach64 es

theorem reach64_nonneg : ∀ {es : List (Int × Nat)}, 0 ≤ reach64 es
  | [] => le_refl _
  | e :: es => by
    unfold reach64
    have := reach64_nonneg (es := es)
    have := abs_nonneg e.1
    omega

/-- Values within limits. -/
def Lim (lo : Nat → Int) : Prop := ∀ v, -1073741823 ≤ lo v ∧ lo v ≤ 1073741823

theorem Boxed.lim (h : Boxed MIN_VAL MAX_VAL W) : Lim (loF (frame W)) ∧ Lim (upF (frame W)) := by
  have key : ∀ v, (-1073741823 ≤ loF (frame W) v ∧ loF (frame W) v ≤ 1073741823) ∧ (-1073741823 ≤ upF (frame W) v ∧ upF (frame W) v ≤ 1073741823) := by
    intro v
    unfold loF upF frame
    dsimp only
    rw [List.getElem?_map]
    cases hv : W.vars[v]? with
    | none => exact ⟨⟨by show (-1073741823 : Int) ≤ 0; omega, by show (0 : Int) ≤ 1073741823; omega⟩, ⟨by show (-1073741823 : Int) ≤ 0; omega, by show (0 : Int) ≤ 1073741823; omega⟩⟩
    | some vs =>
      obtain ⟨n1, n2, n3, n4, n5⟩ := h.get hv
      exact ⟨⟨by show _ ≤ vs.lower; omega, by show vs.lower ≤ _; omega⟩, ⟨by show _ ≤ vs.upper; omega, by show vs.upper ≤ _; omega⟩⟩
  exact ⟨fun v => (key v).1, fun v => (key v).2⟩

theorem prod_lim {co x : Int} (h1 : -1073741823 ≤ x) (h2 : x ≤ 1073741823) : -(|co| * 1073741823) ≤ co * x ∧ co * x ≤ |co| * 1073741823 := by
  rcases abs_cases co with ⟨h, h'⟩ | ⟨h, h'⟩ <;> rw [h] <;> constructor <;> nlinarith

theorem leastSum_lim {lo up : Nat → Int} (hl : Lim lo) (hu : Lim up) : ∀ {es : List (Int × Nat)}, -reach64 es ≤ leastSum lo up es ∧ leastSum lo up es ≤ reach64 es
  | [] => ⟨le_refl _, le_refl _⟩
  | e :: es => by
    obtain ⟨i1, i2⟩ := leastSum_lim hl hu (es := es)
    unfold leastSum reach64
    split_ifs
    · obtain ⟨a, b⟩ := prod_lim (co := e.1) (hl e.2).1 (hl e.2).2
      constructor <;> omega
    · obtain ⟨a, b⟩ := prod_lim (co := e.1) (hu e.2).1 (hu e.2).2
      constructor <;> omega

theorem leastSum_cons {lo up : Nat → Int} {e : Int × Nat} {es : List (Int × Nat)} :
    leastSum lo up (e :: es) = (if 0 < e.1 then e.1 * lo e.2 else e.1 * up e.2) + leastSum lo up es := rfl

theorem term_lim {lo up : Nat → Int} (hl : Lim lo) (hu : Lim up) {e : Int × Nat} :
    -(|e.1| * 1073741823) ≤ (if 0 < e.1 then e.1 * lo e.2 else e.1 * up e.2) ∧ (if 0 < e.1 then e.1 * lo e.2 else e.1 * up e.2) ≤ |e.1| * 1073741823 := by
  split_ifs
  · exact prod_lim (hl e.2).1 (hl e.2).2
  · exact prod_lim (hu e.2).1 (hu e.2).2

/-- The sum without one of its elements. -/
theorem leastSum_rest {lo up : Nat → Int} (hl : Lim lo) (hu : Lim up) {e : Int × Nat} : ∀ {es : List (Int × Nat)}, e ∈ es →
    ∃ r, leastSum lo up es = r + (if 0 < e.1 then e.1 * lo e.2 else e.1 * up e.2) ∧ -(reach64 es - |e.1| * 1073741823) ≤ r ∧ r ≤ reach64 es - |e.1| * 1073741823
  | x :: es, hm => by
    rw [leastSum_cons, reach64]
    rcases List.mem_cons.mp hm with rfl | hm
    · obtain ⟨i1, i2⟩ := leastSum_lim hl hu (es := es)
      exact ⟨leastSum lo up es, add_comm _ _, by omega, by omega⟩
    · obtain ⟨r, h1, h2, h3⟩ := leastSum_rest hl hu hm
      obtain ⟨a, b⟩ := term_lim hl hu (e := x)
      exact ⟨r + (if 0 < x.1 then x.1 * lo x.2 else x.1 * up x.2), by rw [h1]; ring, by omega, by omega⟩

theorem sumBounds64_eq : ∀ {es : List (Int × Nat)} {l u X : Int} {W : World}, Boxed MIN_VAL MAX_VAL W → -X ≤ l → l ≤ X → -X ≤ u → u ≤ X → X + reach64 es ≤ 9223372036854775807 →
    sumBounds64 es l u W = (sumBounds es >>= fun p => pure (l + p.1, u + p.2)) W
  | [], l, u, X, W, hb, h1, h2, h3, h4, h5 => by
    show Except.ok ((l, u), W) = Except.ok ((l + 0, u + 0), W)
    rw [add_zero, add_zero]
  | (co, v) :: es, l, u, X, W, hb, h1, h2, h3, h4, h5 => by
    have hn := reach64_nonneg (es := es)
    unfold reach64 at h5
    dsimp only at h5
    unfold sumBounds64 sumBounds
    have assoc : ∀ (f : VarState → SM (Int × Int)) (g : Int × Int → SM (Int × Int)), ((getVar v >>= f) >>= g) W = (getVar v >>= fun a => f a >>= g) W := by
      intro f g
      rw [bind_assoc]
    rw [assoc]
    refine SM.bind_eq rfl (fun vs W1 hv => ?_)
    obtain ⟨hv, rfl⟩ := getVar_iff.mp hv
    obtain ⟨n1, n2, n3, n4, n5⟩ := hb.get hv
    obtain ⟨a1, a2⟩ := prod_lim (co := co) (x := vs.lower) (by omega) (by omega)
    obtain ⟨b1, b2⟩ := prod_lim (co := co) (x := vs.upper) (by omega) (by omega)
    rw [mul_comm co] at a1 a2 b1 b2
    refine (fit64_bind (x := vs.lower * co) (by omega) (by omega)).trans ?_
    refine (fit64_bind (x := vs.upper * co) (by omega) (by omega)).trans ?_
    split_ifs with hc
    · refine (fit64_bind (x := l + vs.lower * co) (by omega) (by omega)).trans ?_
      refine (fit64_bind (x := u + vs.upper * co) (by omega) (by omega)).trans ?_
      rw [sumBounds64_eq (X := X + |co| * 1073741823) hb (by omega) (by omega) (by omega) (by omega) (by omega), bind_assoc]
      refine SM.bind_eq rfl (fun p W2 _ => ?_)
      show Except.ok ((_, _), W2) = Except.ok ((_, _), W2)
      congr 3 <;> ring
    · refine (fit64_bind (x := l + vs.upper * co) (by omega) (by omega)).trans ?_
      refine (fit64_bind (x := u + vs.lower * co) (by omega) (by omega)).trans ?_
      rw [sumBounds64_eq (X := X + |co| * 1073741823) hb (by omega) (by omega) (by omega) (by omega) (by omega), bind_assoc]
      refine SM.bind_eq rfl (fun p W2 _ => ?_)
      show Except.ok ((_, _), W2) = Except.ok ((_, _), W2)
      congr 3 <;> ring

theorem sumCheckState64_eq {c : CState} {es : List (Int × Nat)} (hb : Boxed MIN_VAL MAX_VAL W) (h : reach64 es ≤ 9223372036854775807) :
    sumCheckState64 c es W = sumCheckState c es W := by
  unfold sumCheckState64 sumCheckState
  refine SM.bind_eq ?_ (fun _ _ _ => rfl)
  rw [sumBounds64_eq (X := 0) hb (by omega) (by omega) (by omega) (by omega) (by omega)]
  simp

theorem sumPropagate64_eq {n : Nat} {ck t : Bool} {clit rhs : Int} {es : List (Int × Nat)} {c : CState} (ht : TI W) (hb : Boxed MIN_VAL MAX_VAL W)
    (hc : W.book.cs[n]? = some c) (hlow : c.lower = leastSum (loF (frame W)) (upF (frame W)) es)
    (he : ∀ e ∈ es, e.1 ≠ 0 ∧ -1073741823 ≤ e.1 ∧ e.1 ≤ 1073741823) (h1 : -9223372036854775808 ≤ rhs - reach64 es) (h2 : rhs + reach64 es ≤ 9223372036854775807)
    (h3 : rhs - c.lower ≠ 9223372036854775807) :
    sumPropagate64 cc n ck t clit rhs es W = sumPropagate cc n ck t clit rhs es W := by
  obtain ⟨hl, hu⟩ := hb.lim
  have hn := reach64_nonneg (es := es)
  obtain ⟨s1, s2⟩ := leastSum_lim hl hu (es := es)
  rw [← hlow] at s1 s2
  unfold sumPropagate64 sumPropagate
  refine SM.bind_eq rfl (fun c' W1 hc' => ?_)
  obtain ⟨⟨hc', -⟩, rfl⟩ := getCS_iff.mp hc'
  rw [hc] at hc'
  injection hc' with hc'
  subst hc'
  refine SM.bind_eq ?_ (fun u W2 hu2 => ?_)
  · unfold whenS
    split_ifs
    · refine sumCheckState64_eq hb (by omega)
    · rfl
  have e2 : W2 = W1 := by
    unfold whenS at hu2
    split_ifs at hu2
    · exact sumCheckState_same hu2
    · exact (pure_iff.mp hu2).2
  subst e2
  refine SM.bind_eq rfl (fun f W3 hf => ?_)
  obtain ⟨-, rfl⟩ := qFalse_iff.mp hf
  refine SM.bind_eq rfl (fun f W4 hf => ?_)
  obtain ⟨-, rfl⟩ := assertS_iff.mp hf
  split_ifs with c1 c2
  · rfl
  · refine (fit64_bind (x := rhs - c.lower) (by omega) (by omega)).trans ?_
    rw [if_pos c2]
    refine SM.bind_eq ?_ (fun _ _ _ => rfl)
    refine sumReason64_eq (s := rhs - c.lower) (by omega) ht hb rfl rfl (fun e hm => ?_) (le_refl _) c2
    obtain ⟨a, b, d⟩ := he e hm
    obtain ⟨r, r1, r2, r3⟩ := leastSum_rest hl hu hm
    rw [← hlow] at r1
    refine ⟨a, b, d, fun h => ?_, fun h => ?_⟩
    · rw [h] at r1 r2 r3
      norm_num at r1 r2 r3
      omega
    · rw [h] at r1 r2 r3
      norm_num at r1 r2 r3
      omega
  · refine (fit64_bind (x := rhs - c.lower) (by omega) (by omega)).trans ?_
    rw [if_neg c2]
    refine SM.bind_eq rfl (fun b W5 hb5 => ?_)
    obtain ⟨-, rfl⟩ := qTrue_iff.mp hb5
    split_ifs
    · rfl
    refine sumLoop64_eq he (by omega) (by omega) ht hb rfl rfl (fun e hm => ⟨hm, ?_⟩)
    obtain ⟨r, r1, r2, r3⟩ := leastSum_rest hl hu hm
    rw [← hlow] at r1
    refine ⟨fun h => ?_, fun h => ?_⟩
    · rw [h] at r1 r2 r3
      norm_num at r1 r2 r3
      omega
    · rw [h] at r1 r2 r3
      norm_num at r1 r2 r3
      omega

end Clingcon
