import Verif.Proof.ExtProp

/-! Propagation of linear constraints loses no solutions. -/
set_option linter.unusedSimpArgs false
namespace Clingcon
open Spec VarState

variable {β : Nat → Bool} {σ : Nat → Int} {F : List VarState × Book} {m : Bool} {L : List Lvl} {α : Type} {W W' : World}

/-- Lower bound of a variable in a frame. -/
def loF (F : List VarState × Book) (v : Nat) : Int := match F.1[v]? with | some vs => vs.lower | none => 0
/-- Upper bound of a variable in a frame. -/
def upF (F : List VarState × Book) (v : Nat) : Int := match F.1[v]? with | some vs => vs.upper | none => 0

/-- A variable state of a faithful state with known bounds. -/
theorem Tr.getVarF {var : Nat} {x : VarState → SM α} {Q : α → World → Prop}
    (hx : ∀ vs, Ext' m (x vs))
    (h : ∀ vs, vs.WF → (∀ k l, (k, l) ∈ vs.with → (litTrue β l ↔ σ var ≤ k)) → vs.minBound ≤ σ var → σ var ≤ vs.maxBound →
      vs.lower = loF F var → vs.upper = upF F var → Tr β σ m (InvF β σ F) (x vs) Q) :
    Tr β σ m (InvF β σ F) (Clingcon.getVar var >>= x) Q := by
  refine Tr.bind (Q := fun vs W => InvF β σ F W ∧ (vs.WF ∧ (∀ k l, (k, l) ∈ vs.with → (litTrue β l ↔ σ var ≤ k)) ∧
    vs.minBound ≤ σ var ∧ σ var ≤ vs.maxBound ∧ vs.lower = loF F var ∧ vs.upper = upF F var)) (Tr.getVar ?_) (fun vs => ?_)
  · intro vs W hW hv
    have hb := hW.1.good.bound _ _ hv
    have hf : F.1[var]? = some vs.bounds := by
      rw [← hW.2]; unfold frame; simp [List.getElem?_map, hv]
    refine ⟨hW, hW.1.wf _ _ hv, hW.1.good.table _ _ hv, hb.1, hb.2, ?_, ?_⟩
    · unfold loF; rw [hf]; rfl
    · unfold upF; rw [hf]; rfl
  · refine Tr.assume (hx vs) ?_
    rintro ⟨h1, h2, h3, h4, h5, h6⟩
    exact h vs h1 h2 h3 h4 h5 h6

/-- Extracting a pure fact. -/
theorem Tr.bindP {P : World → Prop} {x : SM α} {p : α → Prop} {γ : Type} {f : α → SM γ} {R : γ → World → Prop}
    (hx : Tr β σ m P x (fun a W => P W ∧ p a)) (hl : ∀ a, Ext' m (f a)) (hf : ∀ a, p a → Tr β σ m P (f a) R) :
    Tr β σ m P (x >>= f) R := Tr.bind hx (fun a => Tr.assume (hl a) (hf a))

theorem tr_readF {x : SM α} (h : ∀ W a W', x W = .ok (a, W') → W' = W) : Tr β σ m (InvF β σ F) x (fun _ W => InvF β σ F W) :=
  tr_read h

theorem tr_assertF {b : Bool} : Tr β σ m (InvF β σ F) (assertS b) (fun _ W => InvF β σ F W) := Tr.assertS (fun _ _ h => h)

/-- Properties of what was posted that are closed under additions are preserved. -/
theorem Tr.keepLog {P : World → Prop} {x : SM α} {Q : α → World → Prop} {S : List SEv → Prop} (hS : ∀ e log, S log → S (e :: log))
    (hx : Tr β σ m P x Q) : Tr β σ m (fun W => P W ∧ S W.log) x (fun a W => Q a W ∧ S W.log) := by
  intro W a W' h
  obtain ⟨g, q⟩ := hx _ _ _ h
  refine ⟨g, fun hP hr => ⟨q hP.1 hr, ?_⟩⟩
  obtain ⟨new, e⟩ := g.1
  rw [e]
  clear e
  induction new with
  | nil => exact hP.2
  | cons e new ih => exact hS _ _ ih

theorem isFalse_neg {cc : CC} {log : List SEv} {l : Int} (h : l ≠ 0) : cc.isFalse log (-l) = cc.isTrue log l := by
  unfold CC.isFalse CC.isTrue CC.value
  rw [Int.natAbs_neg]
  by_cases h1 : l > 0
  · rw [if_neg (by omega), if_pos h1]
    cases cc.atom log l.natAbs with
    | none => rfl
    | some b => cases b <;> rfl
  · rw [if_pos (by omega), if_neg h1]
    cases cc.atom log l.natAbs with
    | none => rfl
    | some b => cases b <;> rfl

theorem isTrue_neg {cc : CC} {log : List SEv} {l : Int} (h : l ≠ 0) : cc.isTrue log (-l) = cc.isFalse log l := by
  have := isFalse_neg (cc := cc) (log := log) (l := -l) (by omega)
  rw [Int.neg_neg] at this
  exact this.symm

theorem _root_.Clingcon.Spec.EnvMono.value {cc : CC} (h : EnvMono cc) {e : SEv} {log : List SEv} {l : Int} {t : Bool}
    (ht : cc.value log l = some t) : cc.value (e :: log) l = some t := by
  unfold CC.value at *
  split_ifs at * with hc
  · exact h _ _ _ _ ht
  · cases ha : cc.atom log l.natAbs with
    | none => rw [ha] at ht; cases ht
    | some b => rw [ha] at ht; rw [h _ _ _ _ ha]; exact ht

theorem _root_.Clingcon.Spec.EnvMono.isTrue {cc : CC} (h : EnvMono cc) {e : SEv} {log : List SEv} {l : Int}
    (ht : cc.isTrue log l = true) : cc.isTrue (e :: log) l = true := by
  unfold CC.isTrue at *; simp only [beq_iff_eq] at *; exact h.value ht
theorem _root_.Clingcon.Spec.EnvMono.isFalse {cc : CC} (h : EnvMono cc) {e : SEv} {log : List SEv} {l : Int}
    (ht : cc.isFalse log l = true) : cc.isFalse (e :: log) l = true := by
  unfold CC.isFalse at *; simp only [beq_iff_eq] at *; exact h.value ht

/-- The reason literal `l` for the lower bound with new slack. -/
structure LowReason (β : Nat → Bool) (σ : Nat → Int) (var : Nat) (co slack cur l slack' cur' : Int) : Prop where
  ne : l ≠ 0
  lit : litTrue β l ↔ σ var ≤ cur' - 1
  slk : slack' = slack - co * (cur' - cur)
  neg : slack < 0 → slack' < 0

/-- The reason literal `l` for the upper bound with new slack. -/
structure UpReason (β : Nat → Bool) (σ : Nat → Int) (var : Nat) (co slack cur l slack' cur' : Int) : Prop where
  ne : l ≠ 0
  lit : litTrue β l ↔ cur' < σ var
  slk : slack' = slack - co * (cur' - cur)
  neg : slack < 0 → slack' < 0

theorem orderLitGe_mem {vs : VarState} (hw : vs.WF) {v k l : Int} (h : vs.orderLitGe v = some (k, l)) : (k, l) ∈ vs.with ∧ v ≤ k := by
  unfold orderLitGe at h
  have hm := List.mem_of_head? h
  have := ((withGe_spec hw v).2 k l).mp hm
  exact ⟨this.2, this.1⟩

theorem orderLitLe_mem {vs : VarState} (hw : vs.WF) {v k l : Int} (h : vs.orderLitLe v = some (k, l)) : (k, l) ∈ vs.with ∧ k ≤ v := by
  unfold orderLitLe at h
  have hm := List.mem_of_head? h
  have := ((withLe_spec hw v).2 k l).mp hm
  exact ⟨this.2, this.1⟩

theorem tr_refineLower {cc : CC} {var : Nat} {co slack lr cur value : Int} (hl : LowReason β σ var co slack cur lr slack cur) :
    Tr β σ m (InvF β σ F) (refineLower cc var co slack lr cur value)
      (fun p W => InvF β σ F W ∧ LowReason β σ var co slack cur p.2.1 p.2.2.1 p.2.2.2) := by
  unfold refineLower
  refine Tr.getVarF (fun _ => by ext_auto) (fun vs hwf ht _ _ _ _ => ?_)
  cases ho : vs.orderLitGe (value - 1) with
  | none => exact Tr.pure (fun _ h => ⟨h, hl⟩)
  | some kl =>
    obtain ⟨k, l⟩ := kl
    dsimp only
    obtain ⟨hm, hk⟩ := orderLitGe_mem hwf ho
    have hl' := ht k l hm
    have hne : l ≠ 0 := with_nonzero hwf hm
    refine Tr.ite (fun hc => ?_) (fun _ => Tr.pure (fun _ h => ⟨h, hl⟩))
    refine Tr.bindP (p := fun _ => slack - co * (k + 1 - cur) < 0) (Tr.assertS (fun h1 _ h => ⟨h, by simpa using h1⟩)) (fun _ => by ext_auto) (fun _ hs => ?_)
    have key : LowReason β σ var co slack cur l (slack - co * (k + 1 - cur)) (k + 1) :=
      ⟨hne, by rw [hl']; constructor <;> intro <;> omega, rfl, fun _ => hs⟩
    refine Tr.bind (tr_readF (fun _ _ _ h => (qFalse_iff.mp h).2)) (fun b => ?_)
    refine Tr.ite (fun _ => Tr.pure (fun _ h => ⟨h, key⟩)) (fun _ => ?_)
    refine Tr.bind (tr_readF (fun _ _ _ h => (qTrue_iff.mp h).2)) (fun b => ?_)
    refine Tr.bind tr_assertF (fun _ => ?_)
    refine Tr.bind (tr_clause (fun _ => ?_)) (fun b => Tr.pure (fun _ h => ⟨h.1, key⟩))
    by_cases h : litTrue β l
    · exact ⟨lr, by simp, hl.lit.mpr (by have := hl'.mp h; omega)⟩
    · exact ⟨-l, by simp, (litTrue_neg hne).mpr h⟩

theorem tr_refineUpper {cc : CC} {var : Nat} {co slack lr cur value : Int} (hl : UpReason β σ var co slack cur lr slack cur) :
    Tr β σ m (InvF β σ F) (refineUpper cc var co slack lr cur value)
      (fun p W => InvF β σ F W ∧ UpReason β σ var co slack cur p.2.1 p.2.2.1 p.2.2.2) := by
  unfold refineUpper
  refine Tr.getVarF (fun _ => by ext_auto) (fun vs hwf ht _ _ _ _ => ?_)
  cases ho : vs.orderLitLe value with
  | none => exact Tr.pure (fun _ h => ⟨h, hl⟩)
  | some kl =>
    obtain ⟨k, l⟩ := kl
    dsimp only
    obtain ⟨hm, hk⟩ := orderLitLe_mem hwf ho
    have hl' := ht k l hm
    have hne : l ≠ 0 := with_nonzero hwf hm
    refine Tr.ite (fun hc => ?_) (fun _ => Tr.pure (fun _ h => ⟨h, hl⟩))
    refine Tr.bindP (p := fun _ => slack - co * (k - cur) < 0) (Tr.assertS (fun h1 _ h => ⟨h, by simpa using h1⟩)) (fun _ => by ext_auto) (fun _ hs => ?_)
    have key : UpReason β σ var co slack cur (-l) (slack - co * (k - cur)) k :=
      ⟨by omega, by rw [litTrue_neg hne, hl']; constructor <;> intro <;> omega, rfl, fun _ => hs⟩
    refine Tr.bind (tr_readF (fun _ _ _ h => (qFalse_iff.mp h).2)) (fun b => ?_)
    refine Tr.ite (fun _ => Tr.pure (fun _ h => ⟨h, key⟩)) (fun _ => ?_)
    refine Tr.bind (tr_readF (fun _ _ _ h => (qTrue_iff.mp h).2)) (fun b => ?_)
    refine Tr.bind tr_assertF (fun _ => ?_)
    refine Tr.bind (tr_clause (fun _ => ?_)) (fun b => Tr.pure (fun _ h => ⟨h.1, key⟩))
    by_cases h : litTrue β l
    · exact ⟨l, by simp, h⟩
    · exact ⟨lr, by simp, hl.lit.mpr (by have := mt hl'.mpr h; omega)⟩

theorem tr_introduceLower {cc : CC} {var : Nat} {co slack cur value : Int} {p : Bool × Int × Int × Int} (tt : litTrue β 1)
    (hl : LowReason β σ var co slack cur p.2.1 p.2.2.1 p.2.2.2) :
    Tr β σ m (InvF β σ F) (introduceLower cc var co value p)
      (fun q W => InvF β σ F W ∧ ∃ cur', LowReason β σ var co slack cur q.2.1 q.2.2 cur') := by
  unfold introduceLower
  refine Tr.bind (tr_readF (fun _ _ _ h => (qLitLevel_iff.mp h).2)) (fun ll => ?_)
  refine Tr.ite (fun hc => ?_) (fun _ => Tr.pure (fun _ h => ⟨h, _, hl⟩))
  simp only [Bool.and_eq_true, decide_eq_true_eq] at hc
  refine Tr.bindP (p := fun _ => p.2.2.1 - co * (value - p.2.2.2) < 0) (Tr.assertS (fun h1 _ h => ⟨h, by simpa using h1⟩)) (fun _ => by ext_auto) (fun _ hs => ?_)
  refine Tr.bindP (tr_getLiteral tt) (fun _ => by ext_auto) (fun l hl' => ?_)
  have key : LowReason β σ var co slack cur l (p.2.2.1 - co * (value - p.2.2.2)) value :=
    ⟨hl'.1, hl'.2, by rw [hl.slk]; ring, fun _ => hs⟩
  refine Tr.bind (tr_readF (fun _ _ _ h => (qTrue_iff.mp h).2)) (fun b => ?_)
  refine Tr.bind tr_assertF (fun _ => ?_)
  refine Tr.bind (tr_readF (fun _ _ _ h => (qFalse_iff.mp h).2)) (fun b => ?_)
  refine Tr.ite (fun _ => Tr.pure (fun _ h => ⟨h, _, key⟩)) (fun _ => ?_)
  refine Tr.bind (tr_clause (fun _ => ?_)) (fun b => Tr.pure (fun _ h => ⟨h.1, _, key⟩))
  by_cases h : litTrue β l
  · exact ⟨p.2.1, by simp, hl.lit.mpr (by have := hl'.2.mp h; omega)⟩
  · exact ⟨-l, by simp, (litTrue_neg hl'.1).mpr h⟩

theorem tr_introduceUpper {cc : CC} {var : Nat} {co slack cur value : Int} {p : Bool × Int × Int × Int} (tt : litTrue β 1)
    (hl : UpReason β σ var co slack cur p.2.1 p.2.2.1 p.2.2.2) :
    Tr β σ m (InvF β σ F) (introduceUpper cc var co value p)
      (fun q W => InvF β σ F W ∧ ∃ cur', UpReason β σ var co slack cur q.2.1 q.2.2 cur') := by
  unfold introduceUpper
  refine Tr.bind (tr_readF (fun _ _ _ h => (qLitLevel_iff.mp h).2)) (fun ll => ?_)
  refine Tr.ite (fun hc => ?_) (fun _ => Tr.pure (fun _ h => ⟨h, _, hl⟩))
  simp only [Bool.and_eq_true, decide_eq_true_eq] at hc
  refine Tr.bindP (p := fun _ => p.2.2.1 - co * (value - p.2.2.2) < 0) (Tr.assertS (fun h1 _ h => ⟨h, by simpa using h1⟩)) (fun _ => by ext_auto) (fun _ hs => ?_)
  refine Tr.bindP (tr_getLiteral tt) (fun _ => by ext_auto) (fun l hl' => ?_)
  have key : UpReason β σ var co slack cur (-l) (p.2.2.1 - co * (value - p.2.2.2)) value :=
    ⟨by have := hl'.1; omega, by rw [litTrue_neg hl'.1, hl'.2]; constructor <;> intro <;> omega, by rw [hl.slk]; ring, fun _ => hs⟩
  refine Tr.bind (tr_readF (fun _ _ _ h => (qTrue_iff.mp h).2)) (fun b => ?_)
  refine Tr.bind tr_assertF (fun _ => ?_)
  refine Tr.bind (tr_readF (fun _ _ _ h => (qFalse_iff.mp h).2)) (fun b => ?_)
  refine Tr.ite (fun _ => Tr.pure (fun _ h => ⟨h, _, key⟩)) (fun _ => ?_)
  refine Tr.bind (tr_clause (fun _ => ?_)) (fun b => Tr.pure (fun _ h => ⟨h.1, _, key⟩))
  by_cases h : litTrue β l
  · exact ⟨l, by simp, h⟩
  · exact ⟨p.2.1, by simp, hl.lit.mpr (by have := mt hl'.2.mpr h; omega)⟩

theorem tr_reasonLower {cc : CC} {var : Nat} {co slack : Int} (tt : litTrue β 1) :
    Tr β σ m (InvF β σ F) (reasonLower cc var co slack)
      (fun q W => InvF β σ F W ∧ ∃ cur', LowReason β σ var co slack (loF F var) q.2.1 q.2.2 cur') := by
  unfold reasonLower
  refine Tr.getVarF (fun _ => by ext_auto) (fun vs _ _ _ _ hlo _ => ?_)
  refine Tr.bindP (tr_getLiteral tt) (fun _ => by ext_auto) (fun l hl' => ?_)
  have key : LowReason β σ var co slack (loF F var) l slack (loF F var) :=
    ⟨hl'.1, by rw [← hlo]; exact hl'.2, by ring, fun h => h⟩
  refine Tr.bind (tr_readF (fun _ _ _ h => (qFalse_iff.mp h).2)) (fun b => ?_)
  refine Tr.bind tr_assertF (fun _ => ?_)
  refine Tr.ite (fun _ => ?_) (fun _ => Tr.pure (fun _ h => ⟨h, _, key⟩))
  rw [hlo]
  exact Tr.bindP (p := fun p => LowReason β σ var co slack (loF F var) p.2.1 p.2.2.1 p.2.2.2) (tr_refineLower key)
    (fun _ => by ext_auto) (fun p hp => tr_introduceLower tt hp)

theorem tr_reasonUpper {cc : CC} {var : Nat} {co slack : Int} (tt : litTrue β 1) :
    Tr β σ m (InvF β σ F) (reasonUpper cc var co slack)
      (fun q W => InvF β σ F W ∧ ∃ cur', UpReason β σ var co slack (upF F var) q.2.1 q.2.2 cur') := by
  unfold reasonUpper
  refine Tr.getVarF (fun _ => by ext_auto) (fun vs _ _ _ _ _ hup => ?_)
  refine Tr.bindP (tr_getLiteral tt) (fun _ => by ext_auto) (fun l hl' => ?_)
  have key : UpReason β σ var co slack (upF F var) (-l) slack (upF F var) :=
    ⟨by have := hl'.1; omega, by rw [← hup, litTrue_neg hl'.1, hl'.2]; constructor <;> intro <;> omega, by ring, fun h => h⟩
  refine Tr.bind (tr_readF (fun _ _ _ h => (qFalse_iff.mp h).2)) (fun b => ?_)
  refine Tr.bind tr_assertF (fun _ => ?_)
  refine Tr.ite (fun _ => ?_) (fun _ => Tr.pure (fun _ h => ⟨h, _, key⟩))
  rw [hup]
  exact Tr.bindP (p := fun p => UpReason β σ var co slack (upF F var) p.2.1 p.2.2.1 p.2.2.2) (tr_refineUpper key)
    (fun _ => by ext_auto) (fun p hp => tr_introduceUpper tt hp)

/-- The least value of a term within the bounds. -/
def bndF (F : List VarState × Book) (e : Int × Nat) : Int := if e.1 > 0 then e.1 * loF F e.2 else e.1 * upF F e.2

/-- The property of reasons used below. -/
structure Reason (β : Nat → Bool) (σ : Nat → Int) (F : List VarState × Book) (var : Nat) (co slack : Int) (l slack' : Int) : Prop where
  ne : l ≠ 0
  neg : slack < 0 → slack' < 0
  imp : ¬ litTrue β l → co * σ var ≥ bndF F (co, var) + (slack - slack')

theorem tr_calculateReason {cc : CC} {var : Nat} {co slack : Int} (tt : litTrue β 1) :
    Tr β σ m (InvF β σ F) (calculateReason cc var co slack)
      (fun q W => (InvF β σ F W ∧ (q.1 = true → cc.isFalse W.log q.2.1 = true)) ∧ Reason β σ F var co slack q.2.1 q.2.2) := by
  unfold calculateReason
  refine Tr.bindP (p := fun q => Reason β σ F var co slack q.2.1 q.2.2) ?_ (fun _ => by ext_auto) (fun p hp => ?_)
  · refine Tr.ite (fun hc => ?_) (fun hc => ?_)
    · refine (tr_reasonLower tt).post (fun q W h => ⟨h.1, ?_⟩)
      obtain ⟨cur, h⟩ := h.2
      refine ⟨h.ne, h.neg, fun hf => ?_⟩
      have := mt h.lit.mpr hf
      rw [h.slk, bndF, if_pos hc]
      nlinarith
    · refine (tr_reasonUpper tt).post (fun q W h => ⟨h.1, ?_⟩)
      obtain ⟨cur, h⟩ := h.2
      refine ⟨h.ne, h.neg, fun hf => ?_⟩
      have := mt h.lit.mpr hf
      rw [h.slk, bndF, if_neg hc]
      nlinarith
  · refine Tr.bind (Q := fun f W => InvF β σ F W ∧ f = cc.isFalse W.log p.2.1) ?_ (fun f => ?_)
    · intro W a W' hx
      obtain ⟨rfl, rfl⟩ := qFalse_iff.mp hx
      exact ⟨Grow.refl _ _, fun hP _ => ⟨hP, rfl⟩⟩
    refine Tr.bind (Q := fun _ W => InvF β σ F W ∧ (p.1 = true → cc.isFalse W.log p.2.1 = true)) ?_ (fun _ => Tr.pure (fun _ h => ⟨h, hp⟩))
    refine Tr.assertS (fun h1 W h => ⟨h.1, fun hp => ?_⟩)
    rw [← h.2]
    simpa [hp] using h1

/-- Literals that are dropped are false. -/
theorem tr_pushReason {cc : CC} {reason : List Int} {l : Int} (he : EnvSound cc β) :
    Tr β σ m (fun W => InvF β σ F W ∧ cc.isFalse W.log l = true) (pushReason cc reason l)
      (fun r W => InvF β σ F W ∧ ((∀ x ∈ r, ¬ litTrue β x) → (∀ x ∈ reason, ¬ litTrue β x) ∧ ¬ litTrue β l)) := by
  intro W a W' hx
  refine ⟨ext_pushReason.ext _ _ _ hx, ?_⟩
  rintro ⟨hi, hf⟩ hr
  unfold pushReason at hx
  simp only [smok] at hx
  obtain ⟨f, W1, ⟨rfl, rfl⟩, rfl, rfl⟩ := hx
  refine ⟨hi, fun hall => ?_⟩
  split_ifs at hall with hc
  · exact ⟨hall, he.isFalse _ _ hi.1.good.posted hf (Or.inl hc)⟩
  · exact ⟨fun x hx => hall x (by simp [hx]), hall l (by simp)⟩

/-- The value of a linear term without the variable `skip`. -/
def sumExcept (skip : Option Nat) (f : Int × Nat → Int) : List (Int × Nat) → Int
  | [] => 0
  | e :: es => (if skip = some e.2 then 0 else f e) + sumExcept skip f es

theorem tr_sumReason {cc : CC} {skip : Option Nat} (he : EnvSound cc β) {es : List (Int × Nat)} : ∀ {slack : Int} {reason : List Int},
    Tr β σ m (InvF β σ F) (sumReason cc skip es slack reason)
      (fun r W => InvF β σ F W ∧ ∀ r', r = some r' → ∃ s', (slack < 0 → s' < 0) ∧ ((∀ x ∈ r', ¬ litTrue β x) →
        (∀ x ∈ reason, ¬ litTrue β x) ∧ sumExcept skip (fun e => e.1 * σ e.2) es ≥ sumExcept skip (bndF F) es + (slack - s'))) := by
  induction es with
  | nil =>
    intro slack reason
    refine Tr.pure (fun W h => ⟨h, fun r' hr => ⟨slack, fun h => h, fun hall => ?_⟩⟩)
    injection hr with hr
    subst hr
    exact ⟨hall, by simp [sumExcept]⟩
  | cons e es ih =>
    intro slack reason
    obtain ⟨co, var⟩ := e
    unfold sumReason
    refine Tr.ite (fun hc => ?_) (fun hc => ?_)
    · refine ih.post (fun r W h => ⟨h.1, fun r' hr => ?_⟩)
      obtain ⟨s', h1, h2⟩ := h.2 r' hr
      refine ⟨s', h1, fun hall => ?_⟩
      obtain ⟨h3, h4⟩ := h2 hall
      refine ⟨h3, ?_⟩
      unfold sumExcept
      rw [if_pos hc, if_pos hc]
      linarith
    · refine Tr.bind (tr_calculateReason he.tt) (fun p => ?_)
      refine Tr.assume (by ext_auto) (fun hp => ?_)
      refine Tr.ite (fun _ => Tr.pure (fun W h => ⟨h.1, by simp⟩)) (fun hp1 => ?_)
      have hp1 : p.1 = true := by simpa using hp1
      refine Tr.bind ((tr_pushReason he).pre (fun W h => ⟨h.1, h.2 hp1⟩)) (fun reason1 => ?_)
      refine Tr.assume (by ext_auto) (fun hr1 => ?_)
      refine ih.post (fun r W h => ⟨h.1, fun r' hr => ?_⟩)
      obtain ⟨s', h1, h2⟩ := h.2 r' hr
      refine ⟨s', fun hs => h1 (hp.neg hs), fun hall => ?_⟩
      obtain ⟨h3, h4⟩ := h2 hall
      obtain ⟨h5, h6⟩ := hr1 h3
      refine ⟨h5, ?_⟩
      have := hp.imp h6
      unfold sumExcept
      rw [if_neg hc, if_neg hc]
      dsimp only
      linarith

theorem tr_volatile {cc : CC} {c : List Int} (h : m = false → ∃ l ∈ c, litTrue β l) :
    Tr β σ m (InvF β σ F) (addVolatile cc c) (fun _ W => InvF β σ F W ∧ ∃ l ∈ c, litTrue β l) := by
  intro W b W' hx
  obtain ⟨rfl, rfl⟩ := addVolatile_iff.mp hx
  refine ⟨Grow.ev rfl rfl, fun hW ha => ?_⟩
  have hc : ∃ l ∈ c, litTrue β l := by
    cases m with
    | false => exact h rfl
    | true => exact (ha.2 rfl).1 (.volatile c) (by simp)
  exact ⟨hW.log hc, hc⟩

theorem tr_clauseT {cc : CC} {tagged : Bool} {c : List Int} (h : m = false → ∃ l ∈ c, litTrue β l) :
    Tr β σ m (InvF β σ F) (addClauseT cc tagged c) (fun _ W => InvF β σ F W ∧ ∃ l ∈ c, litTrue β l) := by
  unfold addClauseT
  exact Tr.ite (fun _ => tr_volatile h) (fun _ => tr_clause h)

theorem tr_hasOrder {cc : CC} {var : Nat} {value : Int} {neg : Bool} (tt : litTrue β 1) :
    Tr β σ m (InvF β σ F) (hasOrder cc var value neg) (fun _ W => InvF β σ F W) := by
  unfold hasOrder
  refine Tr.getVarF (fun _ => by ext_auto) (fun vs _ _ _ _ _ _ => ?_)
  refine Tr.bind (Q := fun _ W => InvF β σ F W) (Tr.liftRes (fun _ _ _ h => h)) (fun b => ?_)
  refine Tr.ite (fun _ => ?_) (fun _ => Tr.pure (fun _ h => h))
  exact Tr.bind ((tr_getLiteral tt).post (fun _ _ h => h.1)) (fun l => Tr.pure (fun _ h => h))

theorem tr_needReason {cc : CC} {o : Option Int} :
    Tr β σ m (InvF β σ F) (needReason cc o) (fun _ W => InvF β σ F W) := by
  unfold needReason
  split
  · exact Tr.pure (fun _ h => h)
  · exact Tr.bind (tr_readF (fun _ _ _ h => (qTrue_iff.mp h).2)) (fun b => Tr.pure (fun _ h => h))

/-- The least value of a linear term within the bounds. -/
def bndSum (F : List VarState × Book) (es : List (Int × Nat)) : Int := sumExcept none (bndF F) es
/-- The value of a linear term. -/
def valSum (σ : Nat → Int) (es : List (Int × Nat)) : Int := sumExcept none (fun e => e.1 * σ e.2) es

theorem sumExcept_notin {f : Int × Nat → Int} {v : Nat} : ∀ {es : List (Int × Nat)}, v ∉ es.map (·.2) → sumExcept (some v) f es = sumExcept none f es
  | [], _ => rfl
  | e :: es, h => by
    simp only [List.map_cons, List.mem_cons, not_or] at h
    unfold sumExcept
    rw [if_neg (by simp; exact fun h' => h.1 h'), if_neg (by simp), sumExcept_notin h.2]

theorem sumExcept_mem {f : Int × Nat → Int} {co : Int} {v : Nat} : ∀ {es : List (Int × Nat)}, (es.map (·.2)).Nodup → (co, v) ∈ es →
    sumExcept none f es = f (co, v) + sumExcept (some v) f es
  | [], _, h => by simp at h
  | e :: es, hn, h => by
    simp only [List.map_cons, List.nodup_cons] at hn
    unfold sumExcept
    rw [if_neg (by simp)]
    rcases List.mem_cons.mp h with rfl | h
    · rw [if_pos rfl, sumExcept_notin hn.1]; ring
    · have hne : v ≠ e.2 := fun hv => hn.1 (List.mem_map.mpr ⟨_, h, hv⟩)
      rw [if_neg (by simp [hne]), sumExcept_mem hn.2 h]; ring

/-- What is known when consequences of a linear constraint are derived. -/
structure SumCtx (β : Nat → Bool) (σ : Nat → Int) (F : List VarState × Book) (clit rhs : Int) (es : List (Int × Nat)) (slack : Int) : Prop where
  ne : clit ≠ 0
  con : litTrue β clit → valSum σ es ≤ rhs
  nodup : (es.map (·.2)).Nodup
  slack : rhs - slack ≤ bndSum F es

theorem tr_sumDerive {cc : CC} {tagged : Bool} {clit rhs slack0 slack value co : Int} {es : List (Int × Nat)} {var : Nat} {neg : Bool}
    (he : EnvSound cc β) (hv : EnvMono cc) (hx : SumCtx β σ F clit rhs es slack0) (hm : (co, var) ∈ es)
    (hd : ¬ (neg = false ↔ σ var ≤ value) → co * σ var ≥ bndF F (co, var) + (slack0 - slack)) :
    Tr β σ false (fun W => InvF β σ F W ∧ cc.isTrue W.log clit = true) (sumDerive cc tagged clit es var slack value neg) (fun _ W => InvF β σ F W) := by
  unfold sumDerive
  refine Tr.bindP (p := fun _ => slack < 0) (Tr.assertS (fun h1 _ h => ⟨h, by simpa using h1⟩)) (fun _ => by ext_auto) (fun _ hs => ?_)
  refine Tr.bind (Q := fun r W => InvF β σ F W ∧ ((∀ x ∈ r, ¬ litTrue β x) → litTrue β clit)) ?_ (fun reason0 => Tr.assume (by ext_auto) (fun hr0 => ?_))
  · intro W a W' hx1
    refine ⟨ext_pushReason.ext _ _ _ hx1, fun hiT hr => ?_⟩
    obtain ⟨hi, hT⟩ := hiT
    unfold pushReason at hx1
    simp only [smok] at hx1
    obtain ⟨f, W1, ⟨rfl, rfl⟩, rfl, rfl⟩ := hx1
    refine ⟨hi, fun hall => ?_⟩
    split_ifs at hall with hc
    · exact (not_not.mp ((litTrue_neg hx.ne).not.mp (he.isFalse _ _ hi.1.good.posted (by rw [isFalse_neg hx.ne]; exact hT) (Or.inl hc))))
    · exact (not_not.mp ((litTrue_neg hx.ne).not.mp (hall (-clit) (by simp))))
  refine Tr.bindP (p := fun r => ∀ r', r = some r' → (∀ x ∈ r', ¬ litTrue β x) → (neg = false ↔ σ var ≤ value)) ?_ (fun _ => by ext_auto) (fun r hr => ?_)
  · refine (tr_sumReason he).post (fun r W h => ⟨h.1, fun r' hr hall => ?_⟩)
    obtain ⟨s', h1, h2⟩ := h.2 r' hr
    obtain ⟨h3, h4⟩ := h2 hall
    by_contra hcon
    have h5 := hd hcon
    have h6 := hx.con (hr0 h3)
    unfold valSum at h6
    rw [sumExcept_mem hx.nodup hm] at h6
    have h7 := hx.slack
    unfold bndSum at h7
    rw [sumExcept_mem hx.nodup hm] at h7
    have := h1 hs
    dsimp only at h6
    linarith
  cases r with
  | none => exact Tr.pure (fun _ h => h)
  | some reason =>
    have hr := hr reason rfl
    dsimp only
    refine Tr.bindP (tr_update he.tt ?_) (fun _ => by ext_auto) (fun l hl => ?_)
    · intro _ t ht _
      by_cases hc : (!reason.isEmpty || tagged) = true
      · rw [if_pos hc] at ht; simp at ht
      · rw [if_neg hc] at ht
        injection ht with ht
        have : reason = [] := by
          simp only [Bool.or_eq_true, Bool.not_eq_true', not_or, Bool.not_eq_false] at hc
          simpa using hc.1
        have := hr (by simp [this])
        rw [← ht, ← this]
        cases neg <;> simp
    · have hcl : ∃ x ∈ reason ++ [if neg = true then -l else l], litTrue β x := by
        by_cases hall : ∀ x ∈ reason, ¬ litTrue β x
        · refine ⟨_, List.mem_append_right _ (List.mem_singleton.mpr rfl), ?_⟩
          have := hr hall
          cases neg with
          | false => exact hl.2.mpr (this.mp rfl)
          | true =>
            simp only [if_true]
            rw [litTrue_neg hl.1, hl.2, ← this]; simp
        · push Not at hall
          obtain ⟨x, h1, h2⟩ := hall
          exact ⟨x, List.mem_append_left _ h1, h2⟩
      refine Tr.bind ((tr_clauseT (fun _ => hcl)).post (fun _ _ h => h.1)) (fun b => ?_)
      refine Tr.ite (fun _ => Tr.pure (fun _ h => h)) (fun _ => ?_)
      refine Tr.bind (tr_readF (fun _ _ _ h => (qTrue_iff.mp h).2)) (fun b => ?_)
      exact Tr.bind tr_assertF (fun _ => Tr.pure (fun _ h => h))

theorem tr_sumConsequence {cc : CC} {tagged : Bool} {clit rhs slack0 slack value co : Int} {es : List (Int × Nat)} {var : Nat} {neg : Bool}
    (he : EnvSound cc β) (hv : EnvMono cc) (hx : SumCtx β σ F clit rhs es slack0) (hm : (co, var) ∈ es)
    (hd : ¬ (neg = false ↔ σ var ≤ value) → co * σ var ≥ bndF F (co, var) + (slack0 - slack)) :
    Tr β σ false (fun W => InvF β σ F W ∧ cc.isTrue W.log clit = true) (sumConsequence cc tagged clit es var slack value neg) (fun _ W => InvF β σ F W) := by
  unfold sumConsequence
  refine Tr.bind ((tr_hasOrder he.tt).keepLog (S := fun log => cc.isTrue log clit = true) (fun e log h => EnvMono.isTrue hv h)) (fun l => ?_)
  refine Tr.bind (tr_needReason.keepLog (S := fun log => cc.isTrue log clit = true) (fun e log h => EnvMono.isTrue hv h)) (fun l => ?_)
  exact Tr.ite (fun _ => tr_sumDerive he hv hx hm hd) (fun _ => Tr.pure (fun _ h => h.1))

theorem tr_sumStep {cc : CC} {tagged : Bool} {clit rhs slack co : Int} {es : List (Int × Nat)} {var : Nat}
    (he : EnvSound cc β) (hv : EnvMono cc) (hx : SumCtx β σ F clit rhs es slack) (hm : (co, var) ∈ es) :
    Tr β σ false (fun W => InvF β σ F W ∧ cc.isTrue W.log clit = true) (sumStep cc tagged clit es slack co var) (fun _ W => InvF β σ F W) := by
  unfold sumStep
  intro W a W' hh
  refine ⟨?_, ?_⟩
  · have : Ext' false (sumStep cc tagged clit es slack co var) := ext_sumStep
    exact this.ext _ _ _ hh
  rintro ⟨hi, hT⟩
  obtain ⟨vs, W1, h1, h2⟩ := SM.bind_ok hh
  obtain ⟨hvs, rfl⟩ := getVar_iff.mp h1
  have hf : F.1[var]? = some vs.bounds := by
    rw [← hi.2]; unfold frame; simp [List.getElem?_map, hvs]
  have hlo : vs.lower = loF F var := by unfold loF; rw [hf]; rfl
  have hup : vs.upper = upF F var := by unfold upF; rw [hf]; rfl
  intro hr
  refine (?_ : Tr β σ false (fun W => InvF β σ F W ∧ cc.isTrue W.log clit = true) _ (fun _ W => InvF β σ F W)) _ _ _ h2 |>.2 ⟨hi, hT⟩ hr
  refine Tr.ite (fun hc => ?_) (fun hc => ?_)
  · refine Tr.bind (Q := fun _ W => InvF β σ F W ∧ cc.isTrue W.log clit = true) (Tr.assertS (fun _ _ h => h)) (fun _ => ?_)
    refine Tr.ite (fun _ => Tr.pure (fun _ h => h.1)) (fun _ => ?_)
    refine tr_sumConsequence he hv hx hm (fun hn => ?_)
    have : vs.lower + -floordiv (slack + 1) (-co) ≤ σ var := by simp at hn; omega
    rw [bndF, if_pos hc, ← hlo]
    dsimp only
    nlinarith
  · refine Tr.bind (Q := fun _ W => InvF β σ F W ∧ cc.isTrue W.log clit = true) (Tr.assertS (fun _ _ h => h)) (fun _ => ?_)
    refine Tr.ite (fun _ => Tr.pure (fun _ h => h.1)) (fun _ => ?_)
    refine tr_sumConsequence he hv hx hm (fun hn => ?_)
    have : σ var ≤ vs.upper + floordiv (slack + 1) co := by simp at hn; omega
    rw [bndF, if_neg hc, ← hup]
    dsimp only
    nlinarith

theorem tr_sumLoop {cc : CC} {tagged : Bool} {clit rhs slack : Int} {es : List (Int × Nat)}
    (he : EnvSound cc β) (hv : EnvMono cc) (hx : SumCtx β σ F clit rhs es slack) : ∀ {fs : List (Int × Nat)}, fs ⊆ es →
    Tr β σ false (fun W => InvF β σ F W ∧ cc.isTrue W.log clit = true) (sumLoop cc tagged clit es slack fs) (fun _ W => InvF β σ F W)
  | [], _ => Tr.pure (fun _ h => h.1)
  | (co, var) :: fs, h => by
    unfold sumLoop
    refine Tr.bind (Q := fun _ W => InvF β σ F W ∧ cc.isTrue W.log clit = true) ?_ (fun b => ?_)
    · refine ((tr_sumStep (tagged := tagged) he hv hx (h (by simp))).keepLog (S := fun log => cc.isTrue log clit = true) (fun e log h => EnvMono.isTrue hv h)).conseq (fun W h => ⟨h, h.2⟩) (fun _ _ h => h)
    · refine Tr.ite (fun _ => Tr.pure (fun _ h => h.1)) (fun _ => ?_)
      exact tr_sumLoop he hv hx (fun x hx => h (by simp [hx]))

/-- Bounds and levels as in the frame. -/
def InvB (β : Nat → Bool) (σ : Nat → Int) (F : List VarState × Book) (W : World) : Prop :=
  Inv β σ W ∧ W.vars.map VarState.bounds = F.1 ∧ W.book.levels = F.2.levels

theorem InvF.toB {W : World} (h : InvF β σ F W) : InvB β σ F W := by
  refine ⟨h.1, ?_, ?_⟩ <;> rw [← h.2] <;> rfl

theorem markInactive_levels {b : Book} {l n : Nat} : (b.markInactive l n).levels = b.levels := by
  unfold Book.markInactive
  split
  · rfl
  · split <;> rfl

theorem tr_markInactive {n : Nat} :
    Tr β σ m (fun W => InvF β σ F W) (markInactiveS n) (fun _ W => InvB β σ F W) := by
  intro W a W' hx
  refine ⟨ext_markInactiveS.ext _ _ _ hx, fun hi _ => ?_⟩
  unfold markInactiveS at hx
  simp only [smok] at hx
  obtain ⟨l, W1, ⟨h1, rfl⟩, rfl⟩ := hx
  have hb := hi.toB
  exact ⟨hb.1.book _, hb.2.1, markInactive_levels.trans hb.2.2⟩

theorem InvB.log {e : SEv} {W : World} (h : InvB β σ F W) (he : evHolds β e) : InvB β σ F { W with log := e :: W.log } :=
  ⟨h.1.log he, h.2⟩

theorem tr_clauseTB {cc : CC} {tagged : Bool} {c : List Int} (h : ∃ l ∈ c, litTrue β l) :
    Tr β σ m (InvB β σ F) (addClauseT cc tagged c) (fun _ W => InvB β σ F W) := by
  unfold addClauseT
  refine Tr.ite (fun _ => ?_) (fun _ => ?_)
  · intro W b W' hx
    obtain ⟨rfl, rfl⟩ := addVolatile_iff.mp hx
    exact ⟨Grow.ev rfl rfl, fun hW ha => hW.log h⟩
  · exact Tr.addClause (fun W b hW _ => hW.log h)

theorem tr_sumBounds {es : List (Int × Nat)} : Tr β σ m (InvF β σ F) (sumBounds es) (fun _ W => InvF β σ F W) :=
  tr_readF (fun W a W' h => by
    induction es generalizing a W W' with
    | nil => exact (congrArg Prod.snd (Except.ok.inj h)).symm
    | cons e es ih =>
      obtain ⟨co, var⟩ := e
      unfold sumBounds at h
      simp only [smok] at h
      obtain ⟨vs, W1, ⟨h1, rfl⟩, p, W2, h2, h3⟩ := h
      have := ih _ _ _ h2
      subst this
      rcases h3 with h3 | h3 <;> exact h3.2.2)

theorem tr_sumCheckState {c : CState} {es : List (Int × Nat)} : Tr β σ m (InvF β σ F) (sumCheckState c es) (fun _ W => InvF β σ F W) := by
  unfold sumCheckState
  refine Tr.bind tr_sumBounds (fun p => ?_)
  refine Tr.ite (fun _ => ?_) (fun _ => Tr.ite (fun _ => ?_) (fun _ => Tr.ite (fun _ => ?_) (fun _ => Tr.pure (fun _ h => h))))
  all_goals (intro W a W' h; cases h)

theorem tr_sumPropagate {cc : CC} {n : Nat} {checkState tagged : Bool} {clit rhs : Int} {es : List (Int × Nat)}
    (he : EnvSound cc β) (hv : EnvMono cc) (hne : clit ≠ 0) (hcon : litTrue β clit → valSum σ es ≤ rhs)
    (hnd : (es.map (·.2)).Nodup) (hlow : ∀ c, F.2.cs[n]? = some c → c.lower ≤ bndSum F es) :
    Tr β σ false (InvF β σ F) (sumPropagate cc n checkState tagged clit rhs es) (fun _ W => InvB β σ F W) := by
  unfold sumPropagate
  refine Tr.bindP (p := fun c => c.lower ≤ bndSum F es) ?_ (fun _ => by ext_auto) (fun c hc => ?_)
  · intro W c W' hx
    obtain ⟨⟨h1, -⟩, rfl⟩ := getCS_iff.mp hx
    refine ⟨Grow.refl _ _, fun hi _ => ⟨hi, hlow c ?_⟩⟩
    rw [← hi.2]; exact h1
  have hctx : SumCtx β σ F clit rhs es (rhs - c.lower) := ⟨hne, hcon, hnd, by linarith⟩
  refine Tr.bind (Q := fun _ W => InvF β σ F W) (Tr.whenS (fun _ => tr_sumCheckState) (fun _ _ h => h)) (fun _ => ?_)
  refine Tr.bind (tr_readF (fun _ _ _ h => (qFalse_iff.mp h).2)) (fun b => ?_)
  refine Tr.bind tr_assertF (fun _ => ?_)
  refine Tr.ite (fun _ => ?_) (fun _ => Tr.ite (fun hs => ?_) (fun _ => ?_))
  · exact Tr.bind tr_markInactive (fun _ => Tr.pure (fun _ h => h))
  · refine Tr.bindP (p := fun r => ∀ r', r = some r' → ∃ x ∈ r' ++ [-clit], litTrue β x) ?_ (fun _ => by ext_auto) (fun r hr => ?_)
    · refine (tr_sumReason he).post (fun r W h => ⟨h.1, fun r' hr => ?_⟩)
      obtain ⟨s', h1, h2⟩ := h.2 r' hr
      by_cases hall : ∀ x ∈ r', ¬ litTrue β x
      · refine ⟨-clit, by simp, (litTrue_neg hne).mpr (fun hT => ?_)⟩
        have h3 := hcon hT
        have h4 := (h2 hall).2
        have := h1 hs
        unfold valSum at h3
        unfold bndSum at hc
        linarith
      · push Not at hall
        obtain ⟨x, h1, h2⟩ := hall
        exact ⟨x, List.mem_append_left _ h1, h2⟩
    · cases r with
      | none => exact Tr.pure (fun _ h => h.toB)
      | some r => exact Tr.bind tr_markInactive (fun _ => tr_clauseTB (hr r rfl))
  · refine Tr.bind (Q := fun b W => InvF β σ F W ∧ b = cc.isTrue W.log clit) ?_ (fun b => ?_)
    · intro W a W' hx
      obtain ⟨rfl, rfl⟩ := qTrue_iff.mp hx
      exact ⟨Grow.refl _ _, fun hP _ => ⟨hP, rfl⟩⟩
    · refine Tr.ite (fun _ => Tr.pure (fun _ h => h.1.toB)) (fun hb => ?_)
      have hb : b = true := by simpa using hb
      exact (tr_sumLoop he hv hctx (List.Subset.refl _)).conseq (fun W h => ⟨h.1, by rw [← h.2, hb]⟩) (fun _ _ h => h.toB)

end Clingcon
