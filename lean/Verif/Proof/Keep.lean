import Verif.Proof.Leave
import Verif.Proof.DisjointCore

/-! Functions keeping the invariant of the bookkeeping. -/
set_option linter.unusedSimpArgs false
namespace Clingcon
open Spec VarState

variable {α γ : Type} {W W' : World} {P : List VarState × Book → Prop}

/-- A property of bounds, levels and constraint states is kept. -/
structure Keep (P : List VarState × Book → Prop) (x : SM α) : Prop where
  keep : ∀ W a W', x W = .ok (a, W') → P (frame W) → P (frame W')

theorem Keep.bind {x : SM α} {f : α → SM γ} (hx : Keep P x) (hf : ∀ a, Keep P (f a)) : Keep P (x >>= f) := by
  refine ⟨fun W b W' h hp => ?_⟩
  obtain ⟨a, W1, h1, h2⟩ := SM.bind_ok h
  exact (hf a).keep _ _ _ h2 (hx.keep _ _ _ h1 hp)

theorem Keep.fr {x : SM α} (h : Fr x) : Keep P x := ⟨fun W a W' hx hp => by rw [h.fr _ _ _ hx]; exact hp⟩
theorem Keep.whenS {b : Bool} {x : SM Unit} (h : Keep P x) : Keep P (whenS b x) := by
  unfold Clingcon.whenS; split
  · exact h
  · exact Keep.fr Fr.pure
theorem Keep.discard {x : SM α} (h : Keep P x) : Keep P (Functor.discard x : SM Unit) :=
  Keep.bind (f := fun _ => Pure.pure ()) h (fun _ => Keep.fr Fr.pure)

syntax "keep_step" : tactic
macro_rules | `(tactic| keep_step) => `(tactic| dsimp only)
macro_rules | `(tactic| keep_step) => `(tactic| intro _)
macro_rules | `(tactic| keep_step) => `(tactic| split)
macro_rules | `(tactic| keep_step) => `(tactic| with_reducible apply Keep.bind)
macro_rules | `(tactic| keep_step) => `(tactic| with_reducible apply Keep.whenS)
macro_rules | `(tactic| keep_step) => `(tactic| with_reducible apply Keep.discard)
macro_rules | `(tactic| keep_step) => `(tactic| (with_reducible apply Keep.fr); fr_auto; done)
macro_rules | `(tactic| keep_step) => `(tactic| with_reducible assumption)
syntax "keep_auto" : tactic
macro_rules | `(tactic| keep_auto) => `(tactic| repeat (any_goals keep_step))

/-- The bookkeeping is consistent, the levels are `L`, and the bounds before levels have been opened are `A`. -/
structure At (L : List Lvl) (A : (Nat → Nat → Int) × (Nat → Nat → Int) × Nat) (F : List VarState × Book) : Prop where
  bi : BI F
  lev : F.2.levels = L
  snap : ∀ l ∈ L.head?, ∀ k, 0 < k → k ≤ l.level → alF F k = A.1 k ∧ auF F k = A.2.1 k
  len : F.1.length = A.2.2

theorem At.book {L : List Lvl} {A : (Nat → Nat → Int) × (Nat → Nat → Int) × Nat} {F F' : List VarState × Book} (h : At L A F) (hb : BI F') (hv : F'.1 = F.1)
    (hl : F'.2.levels = F.2.levels) : At L A F' := by
  refine ⟨hb, hl.trans h.lev, fun l hl k h0 hk => ?_, by rw [hv]; exact h.len⟩
  obtain ⟨h1, h2⟩ := h.snap l hl k h0 hk
  constructor
  · rw [← h1]; unfold alF lstF loF; rw [hv]
  · rw [← h2]; unfold auF ustF upF; rw [hv]

/-- Changes of bounds have been delivered, and the queue of constraints is `T`. -/
structure Chk (L : List Lvl) (A : (Nat → Nat → Int) × (Nat → Nat → Int) × Nat) (T : List Nat) (F : List VarState × Book) : Prop where
  «at» : At L A F
  quiet : Still F
  todo : F.2.todo = T

variable {L : List Lvl} {A : (Nat → Nat → Int) × (Nat → Nat → Int) × Nat} {T : List Nat}

theorem curLevel_at {l : Lvl} (h : curLevel W = .ok (l, W')) (ha : At L A (frame W)) : W' = W ∧ ∃ ls, L = l :: ls := by
  obtain ⟨h1, rfl⟩ := curLevel_iff.mp h
  refine ⟨rfl, ?_⟩
  have := ha.lev
  simp only [frame] at this
  rw [this] at h1
  cases L with
  | nil => cases h1
  | cons x xs => injection h1 with h1; subst h1; exact ⟨xs, rfl⟩

/-! ### Changes of bounds -/

theorem updateLower_frame {l v : Nat} {x : Int} {u : Unit} (h : updateLower l v x W = .ok (u, W')) : ∃ y, W.vars[v]? = some y ∧
    frame W' = ((frame W).1.set v { y.bounds with
        lower := x + 1
        lowerStack := if (decide (l > 0) && !y.pushedLower l) then (l, y.lower) :: y.lowerStack else y.lowerStack },
      { W.book with
        undoLower := if (decide (l > 0) && !y.pushedLower l) then W.book.undoLower ++ [v] else W.book.undoLower
        inLdiff := if W.book.ldiff.getD v 0 = 0 then W.book.inLdiff ++ [v] else W.book.inLdiff
        ldiff := W.book.ldiff.set v (W.book.ldiff.getD v 0 + (x + 1 - y.lower)) }) := by
  unfold updateLower at h
  simp only [smok] at h
  obtain ⟨y, W1, ⟨hv, rfl⟩, _, W2, h2, _, W3, ⟨-, rfl⟩, _, W4, rfl, rfl⟩ := h
  refine ⟨y, hv, ?_⟩
  cases hf : (decide (l > 0) && !y.pushedLower l) with
  | true =>
    rw [hf] at h2
    obtain ⟨-, rfl⟩ | ⟨h2, -⟩ := h2
    · unfold frame; simp only [vars_set, if_true]; rfl
    · cases h2
  | false =>
    rw [hf] at h2
    obtain ⟨h2, -⟩ | ⟨-, rfl⟩ := h2
    · cases h2
    · unfold frame; simp only [vars_set]; rfl

theorem updateUpper_frame {l v : Nat} {x : Int} {u : Unit} (h : updateUpper l v x W = .ok (u, W')) : ∃ y, W.vars[v]? = some y ∧
    frame W' = ((frame W).1.set v { y.bounds with
        upper := x
        upperStack := if (decide (l > 0) && !y.pushedUpper l) then (l, y.upper) :: y.upperStack else y.upperStack },
      { W.book with
        undoUpper := if (decide (l > 0) && !y.pushedUpper l) then W.book.undoUpper ++ [v] else W.book.undoUpper
        inUdiff := if W.book.udiff.getD v 0 = 0 then W.book.inUdiff ++ [v] else W.book.inUdiff
        udiff := W.book.udiff.set v (W.book.udiff.getD v 0 + (x - y.upper)) }) := by
  unfold updateUpper at h
  simp only [smok] at h
  obtain ⟨y, W1, ⟨hv, rfl⟩, _, W2, h2, _, W3, ⟨-, rfl⟩, _, W4, rfl, rfl⟩ := h
  refine ⟨y, hv, ?_⟩
  cases hf : (decide (l > 0) && !y.pushedUpper l) with
  | true =>
    rw [hf] at h2
    obtain ⟨-, rfl⟩ | ⟨h2, -⟩ := h2
    · unfold frame; simp only [vars_set, if_true]; rfl
    · cases h2
  | false =>
    rw [hf] at h2
    obtain ⟨h2, -⟩ | ⟨-, rfl⟩ := h2
    · cases h2
    · unfold frame; simp only [vars_set]; rfl

theorem At.step {l : Lvl} {ls : List Lvl} {F F' : List VarState × Book} (ha : At (l :: ls) A F) (hb : BI F') (hl : F'.2.levels = F.2.levels)
    (hn : F'.1.length = F.1.length) (hs : ∀ k, 0 < k → k ≤ l.level → alF F' k = alF F k ∧ auF F' k = auF F k) : At (l :: ls) A F' := by
  refine ⟨hb, hl.trans ha.lev, fun l' hl' k h0 hk => ?_, hn.trans ha.len⟩
  injection hl' with hl'; subst hl'
  obtain ⟨j1, j2⟩ := hs k h0 hk
  obtain ⟨j3, j4⟩ := ha.snap l rfl k h0 hk
  exact ⟨j1.trans j3, j2.trans j4⟩

theorem at_updateLower {l : Lvl} {ls : List Lvl} {v : Nat} {x : Int} {u : Unit}
    (h : updateLower l.level v x W = .ok (u, W')) (hx : ∀ y, W.vars[v]? = some y → y.lower < x + 1) (ha : At (l :: ls) A (frame W)) :
    At (l :: ls) A (frame W') := by
  obtain ⟨y, hv, e⟩ := updateLower_frame h
  have hv' : (frame W).1[v]? = some y.bounds := by simp [frame, List.getElem?_map, hv]
  obtain ⟨i1, i2⟩ := BI.lower (b := W.book) ha.bi ha.lev hv' (x := x + 1) (hx y hv) rfl rfl
  rw [e]
  exact ha.step i1 rfl List.length_set i2

theorem at_updateUpper {l : Lvl} {ls : List Lvl} {v : Nat} {x : Int} {u : Unit}
    (h : updateUpper l.level v x W = .ok (u, W')) (hx : ∀ y, W.vars[v]? = some y → x < y.upper) (ha : At (l :: ls) A (frame W)) :
    At (l :: ls) A (frame W') := by
  obtain ⟨y, hv, e⟩ := updateUpper_frame h
  have hv' : (frame W).1[v]? = some y.bounds := by simp [frame, List.getElem?_map, hv]
  obtain ⟨i1, i2⟩ := BI.upper (b := W.book) ha.bi ha.lev hv' (x := x) (hx y hv) rfl rfl
  rw [e]
  exact ha.step i1 rfl List.length_set i2

theorem keep_updateUpperLit {cc : CC} {l : Lvl} {ls : List Lvl} {v : Nat} {lit value sl : Int} :
    Keep (At (l :: ls) A) (updateUpperLit cc l.level v lit value sl) := by
  refine ⟨fun W a W' h ha => ?_⟩
  unfold updateUpperLit at h
  obtain ⟨y, W1, h1, h3⟩ := SM.bind_ok h
  obtain ⟨hv, rfl⟩ := getVar_iff.mp h1
  clear h
  rename' h3 => h
  split_ifs at h with hc
  · have : Keep (At (l :: ls) A) (do
        let l ← getLiteral cc v (y.lower - 1)
        whenS (← addClause cc [l, -lit]) (discard (ccPropagate cc))
        return false) := by keep_auto
    exact this.keep _ _ _ h ha
  · obtain ⟨_, W2, h2, h3⟩ := SM.bind_ok h
    clear h
    rename' h3 => h
    have h2 : At (l :: ls) A (frame W2) := by
      unfold whenS at h2
      split_ifs at h2 with hu
      · refine at_updateUpper h2 ?_ ha
        intro y' hy'
        rw [hv] at hy'; injection hy' with hy'; subst hy'
        simpa using hu
      · obtain ⟨-, rfl⟩ := pure_iff.mp h2; exact ha
    refine Keep.keep (P := At (l :: ls) A) ?_ _ _ _ h h2
    keep_auto

theorem keep_updateLowerLit {cc : CC} {l : Lvl} {ls : List Lvl} {v : Nat} {lit value sl : Int} :
    Keep (At (l :: ls) A) (updateLowerLit cc l.level v lit value sl) := by
  refine ⟨fun W a W' h ha => ?_⟩
  unfold updateLowerLit at h
  obtain ⟨y, W1, h1, h3⟩ := SM.bind_ok h
  obtain ⟨hv, rfl⟩ := getVar_iff.mp h1
  clear h
  rename' h3 => h
  split_ifs at h with hc
  · refine Keep.keep (P := At (l :: ls) A) ?_ _ _ _ h ha
    keep_auto
  · obtain ⟨_, W2, h2, h3⟩ := SM.bind_ok h
    clear h
    rename' h3 => h
    have h2 : At (l :: ls) A (frame W2) := by
      unfold whenS at h2
      split_ifs at h2 with hu
      · refine at_updateLower h2 ?_ ha
        intro y' hy'
        rw [hv] at hy'; injection hy' with hy'; subst hy'
        simpa using hu
      · obtain ⟨-, rfl⟩ := pure_iff.mp h2; exact ha
    refine Keep.keep (P := At (l :: ls) A) ?_ _ _ _ h h2
    keep_auto
macro_rules | `(tactic| keep_step) => `(tactic| with_reducible exact keep_updateUpperLit)
macro_rules | `(tactic| keep_step) => `(tactic| with_reducible exact keep_updateLowerLit)

theorem keep_propagateFacts {cc : CC} {l : Lvl} {ls : List Lvl} : ∀ {fs : List (Int × Nat × Int × Int)},
    Keep (At (l :: ls) A) (propagateFacts cc l.level fs)
  | [] => by unfold propagateFacts; keep_auto
  | (a, b, c, d) :: fs => by
    have ih := keep_propagateFacts (cc := cc) (l := l) (ls := ls) (fs := fs)
    unfold propagateFacts; keep_auto
macro_rules | `(tactic| keep_step) => `(tactic| with_reducible exact keep_propagateFacts)

/-- Functions starting with a query of the current level. -/
theorem Keep.level {f : Lvl → SM α} (h : ∀ l ls, L = l :: ls → Keep (At (l :: ls) A) (f l)) : Keep (At L A) (curLevel >>= f) := by
  refine ⟨fun W a W' hx ha => ?_⟩
  obtain ⟨l, W1, h1, h2⟩ := SM.bind_ok hx
  obtain ⟨rfl, ls, rfl⟩ := curLevel_at h1 ha
  exact (h l ls rfl).keep _ _ _ h2 ha

theorem keep_updateDomain {cc : CC} {lit : Int} : Keep (At L A) (updateDomain cc lit) := by
  unfold updateDomain
  refine Keep.level (fun l ls hL => ?_)
  keep_auto
macro_rules | `(tactic| keep_step) => `(tactic| with_reducible exact keep_updateDomain)

/-! ### Changes of constraint states -/

theorem Chk.set {n : Nat} {c c' : CState} {F F' : List VarState × Book} (h : Chk L A T F) (hc : F.2.cs[n]? = some c) (hi : c'.inactive = c.inactive)
    (ht : c'.alive = true → c.alive = true ∧ (Tracked (viewF F) n c → Tracked (viewF F) n c')) (hF : F' = (F.1, { F.2 with cs := F.2.cs.set n c' })) :
    Chk L A T F' := by
  subst hF
  refine ⟨h.at.book (BI.setOne (vs := F.1) (b := F.2) h.at.bi hc hi ht) rfl rfl, ⟨h.quiet.low, h.quiet.upp⟩, h.todo⟩

theorem Keep.setCS {n : Nat} {f : CState → CState} {k : CState → SM γ} (hC : ∀ c, SameC c (f c)) (hF : ∀ c, SameF c (f c)) (hk : ∀ c, Keep (Chk L A T) (k c)) :
    Keep (Chk L A T) (getCS n >>= fun c => setCS n (f c) >>= fun _ => k c) := by
  refine ⟨fun W a W' hx h => ?_⟩
  obtain ⟨c, W1, h1, h2⟩ := SM.bind_ok hx
  obtain ⟨⟨hc, -⟩, rfl⟩ := getCS_iff.mp h1
  obtain ⟨_, W2, h3, h4⟩ := SM.bind_ok h2
  injection h3 with h3
  obtain ⟨-, rfl⟩ := Prod.mk.inj h3
  refine (hk c).keep _ _ _ h4 ?_
  exact h.set hc (hF c).inactive (fun ha => ⟨(hF c).alive ▸ ha, fun ht => ht.same (SameV.refl _) (hF c) (hC c)⟩) rfl

theorem keepC_markInactiveS {n : Nat} : Keep (Chk L A T) (markInactiveS n) := by
  refine ⟨fun W a W' hx h => ?_⟩
  unfold markInactiveS at hx
  obtain ⟨l, W1, h1, h2⟩ := SM.bind_ok hx
  obtain ⟨rfl, ls, rfl⟩ := curLevel_at h1 h.at
  rw [modify_iff] at h2
  subst h2
  have := BI.markInactive (vs := (frame W1).1) (b := W1.book) h.at.bi h.at.lev n
  have hq := h.quiet
  have ht := h.todo
  refine ⟨h.at.book this rfl ?_, ⟨?_, ?_⟩, ?_⟩
  all_goals
    simp only [frame, Book.markInactive]
    simp only [frame] at hq ht
    cases W1.book.cs[n]? with
    | none => first | rfl | exact hq.low | exact hq.upp | exact ht
    | some c =>
      dsimp only
      split_ifs <;> first | rfl | exact hq.low | exact hq.upp | exact ht
macro_rules | `(tactic| keep_step) => `(tactic| with_reducible exact keepC_markInactiveS)

theorem keepC_sumPropagate {cc : CC} {n : Nat} {ck t : Bool} {l r : Int} {es : List (Int × Nat)} : Keep (Chk L A T) (sumPropagate cc n ck t l r es) := by
  unfold sumPropagate; keep_auto
macro_rules | `(tactic| keep_step) => `(tactic| with_reducible exact keepC_sumPropagate)

theorem keepC_nonlinearPropagate {cc : CC} {n : Nat} {ca cb r : Int} {x y z : Nat} : Keep (Chk L A T) (nonlinearPropagate cc n ca x y cb z r) := by
  unfold nonlinearPropagate; keep_auto
macro_rules | `(tactic| keep_step) => `(tactic| with_reducible exact keepC_nonlinearPropagate)

theorem keepC_setIvs {n : Nat} {f : CState → CState} {is : List DInterval} {W2 : World} {u : Unit} (hf : ∀ c, SameF c (f c) ∧ (f c).intervals = is ∧ f c = { c with intervals := is, forceUpdate := (f c).forceUpdate })
    {c : CState} (hc : W.book.cs[n]? = some c) (hp : (is.map ivKey).Perm (c.intervals.map ivKey)) (hx : setCS n (f c) W = .ok (u, W2)) (h : Chk L A T (frame W)) :
    Chk L A T (frame W2) ∧ W2.book.cs[n]? = some (f c) := by
  injection hx with hx
  obtain ⟨-, rfl⟩ := Prod.mk.inj hx
  obtain ⟨h1, h2, h3⟩ := hf c
  refine ⟨h.set hc h1.inactive (fun ha => ⟨h1.alive ▸ ha, fun ht => ht.same (SameV.refl _) h1 ?_⟩) rfl, ?_⟩
  · rw [h3]
    exact ⟨rfl, rfl, rfl, rfl, rfl, rfl, rfl, rfl, hp, id⟩
  · dsimp only
    rw [List.getElem?_set_self (List.getElem?_eq_some_iff.mp hc).1]

theorem keepC_disjointPropagate {cc : CC} {n : Nat} {l : Int} : Keep (Chk L A T) (disjointPropagate cc n l) := by
  refine ⟨fun W r W' h hk => ?_⟩
  unfold disjointPropagate at h
  obtain ⟨c, W1, h1, h2⟩ := SM.bind_ok h
  obtain ⟨⟨hc, -⟩, rfl⟩ := getCS_iff.mp h1
  obtain ⟨is, W2, h3, h4⟩ := SM.bind_ok h2
  have hf1 := fr_disjointLoad.fr _ _ _ h3
  have k1 := disjointLoad_key h3
  obtain ⟨p, W3, h5, h6⟩ := SM.bind_ok h4
  have hf2 := fr_disjointRun.fr _ _ _ h5
  have k2 := ivKey_core (disjointRun_core h5)
  rw [k1] at k2
  obtain ⟨c', W4, h7, h8⟩ := SM.bind_ok h6
  obtain ⟨⟨hc', -⟩, rfl⟩ := getCS_iff.mp h7
  have hb : W4.book = W1.book := (congrArg Prod.snd hf2).trans (congrArg Prod.snd hf1)
  rw [hb, hc] at hc'
  injection hc' with hc'
  subst hc'
  obtain ⟨u, W5, h9, h10⟩ := SM.bind_ok h8
  obtain ⟨hk5, hc5⟩ := keepC_setIvs (f := fun c => { c with intervals := p.2, forceUpdate := false }) (is := p.2) (fun c => ⟨⟨rfl, rfl, rfl⟩, rfl, rfl⟩)
    (by rw [hb]; exact hc) k2 h9 (by rw [hf2, hf1]; exact hk)
  split_ifs at h10 with hp
  · obtain ⟨-, rfl⟩ := pure_iff.mp h10
    exact hk5
  · obtain ⟨q, W6, h11, h12⟩ := SM.bind_ok h10
    have hf3 := fr_disjointRun.fr _ _ _ h11
    have k3 := ivKey_core (disjointRun_core h11)
    obtain ⟨c2, W7, h13, h14⟩ := SM.bind_ok h12
    obtain ⟨⟨hc2, -⟩, rfl⟩ := getCS_iff.mp h13
    have hb3 : W7.book = W5.book := congrArg Prod.snd hf3
    rw [hb3, hc5] at hc2
    injection hc2 with hc2
    subst hc2
    obtain ⟨u', W8, h15, h16⟩ := SM.bind_ok h14
    obtain ⟨hk8, -⟩ := keepC_setIvs (f := fun c => { c with intervals := q.2 }) (is := q.2) (fun c => ⟨⟨rfl, rfl, rfl⟩, rfl, rfl⟩)
      (by rw [hb3]; exact hc5) k3 h15 (by rw [hf3]; exact hk5)
    obtain ⟨-, rfl⟩ := pure_iff.mp h16
    exact hk8
macro_rules | `(tactic| keep_step) => `(tactic| with_reducible exact keepC_disjointPropagate)

/-! ### Updates of distinct constraints -/

theorem sumBounds_eff : ∀ {es : List (Int × Nat)} {W W' : World} {p : Int × Int}, sumBounds es W = .ok (p, W') →
    W' = W ∧ p = (lowSum (loF (frame W)) (upF (frame W)) es, upSum (loF (frame W)) (upF (frame W)) es)
  | [], W, W', p, h => by
    obtain ⟨rfl, rfl⟩ := pure_iff.mp h
    exact ⟨rfl, rfl⟩
  | (co, v) :: es, W, W', p, h => by
    unfold sumBounds at h
    obtain ⟨y, W1, h1, h2⟩ := SM.bind_ok h
    obtain ⟨hv, rfl⟩ := getVar_iff.mp h1
    obtain ⟨q, W2, h3, h4⟩ := SM.bind_ok h2
    obtain ⟨rfl, rfl⟩ := sumBounds_eff h3
    have e1 : loF (frame W2) v = y.lower := by unfold loF frame; simp [List.getElem?_map, hv]; rfl
    have e2 : upF (frame W2) v = y.upper := by unfold upF frame; simp [List.getElem?_map, hv]; rfl
    split_ifs at h4 with hc
    · obtain ⟨rfl, rfl⟩ := pure_iff.mp h4
      refine ⟨rfl, ?_⟩
      simp only [lowSum, upSum, if_pos hc, e1, e2, mul_comm co]
    · obtain ⟨rfl, rfl⟩ := pure_iff.mp h4
      refine ⟨rfl, ?_⟩
      simp only [lowSum, upSum, if_neg hc, e1, e2, mul_comm co]

theorem setInsert_mem {p q : Int × Nat} : ∀ {s : List (Int × Nat)}, q ∈ setInsert p s ↔ q = p ∨ q ∈ s
  | [] => by simp [setInsert]
  | x :: s => by
    unfold setInsert
    split_ifs with h1 h2
    · subst h1; simp
    · simp
    · simp only [List.mem_cons, setInsert_mem (s := s)]; tauto

theorem setInsert_nodup {p : Int × Nat} : ∀ {s : List (Int × Nat)}, s.Nodup → p ∉ s → (setInsert p s).Nodup
  | [], _, _ => by simp [setInsert]
  | x :: s, h, hp => by
    unfold setInsert
    rw [List.nodup_cons] at h
    rw [List.mem_cons, not_or] at hp
    split_ifs with h1 h2
    · exact absurd h1 hp.1
    · rw [List.nodup_cons]
      refine ⟨?_, by rw [List.nodup_cons]; exact h⟩
      rw [List.mem_cons]
      rintro (e | e)
      · exact h1 e
      · exact hp.2 e
    · rw [List.nodup_cons]
      refine ⟨?_, setInsert_nodup h.2 hp.2⟩
      rw [setInsert_mem]
      rintro (e | e)
      · exact h1 e.symm
      · exact h.1 e

/-- Replacing the bound of an element in a set of bounds. -/
theorem set_replace {f : Int × Int → Int} {S S' : List (Int × Nat)} {as : List (Int × Int)} {i : Nat} {old new : Int × Int} (hn : S.Nodup)
    (hm : ∀ b j, (b, j) ∈ S ↔ ∃ q, as[j]? = some q ∧ f q = b) (ho : as[i]? = some old) (he : setExtract (f old, i) S = .ok S') :
    (setInsert (f new, i) S').Nodup ∧ ∀ b j, (b, j) ∈ setInsert (f new, i) S' ↔ ∃ q, (as.set i new)[j]? = some q ∧ f q = b := by
  unfold setExtract at he
  split_ifs at he with hc
  injection he with he
  subst he
  have hmem : ∀ b j, (b, j) ∈ S.erase (f old, i) ↔ (j ≠ i ∧ (b, j) ∈ S) := by
    intro b j
    rw [hn.mem_erase_iff]
    constructor
    · rintro ⟨h1, h2⟩
      refine ⟨?_, h2⟩
      rintro rfl
      obtain ⟨q, h3, h4⟩ := (hm b j).mp h2
      rw [ho] at h3; injection h3 with h3; subst h3
      exact h1 (by rw [h4])
    · rintro ⟨h1, h2⟩
      exact ⟨fun e => h1 (congrArg Prod.snd e), h2⟩
  have hil : i < as.length := (List.getElem?_eq_some_iff.mp ho).1
  constructor
  · refine setInsert_nodup (hn.erase _) ?_
    rw [hmem]; exact fun h => h.1 rfl
  · intro b j
    rw [setInsert_mem, hmem]
    by_cases hj : j = i
    · subst hj
      rw [List.getElem?_set_self hil]
      constructor
      · rintro (e | ⟨h1, -⟩)
        · exact ⟨new, rfl, (congrArg Prod.fst e).symm⟩
        · exact absurd rfl h1
      · rintro ⟨q, h1, h2⟩
        injection h1 with h1; subst h1
        left; rw [h2]
    · rw [List.getElem?_set_ne (fun e => hj e.symm), ← hm]
      constructor
      · rintro (e | ⟨-, h1⟩)
        · exact absurd (congrArg Prod.snd e) hj
        · exact h1
      · intro h1; exact Or.inr ⟨hj, h1⟩

theorem distinctUpdate_eff {es : List (List (Int × Nat) × Int)} : ∀ {is : List Nat} {c c' : CState} {W W' : World}, distinctUpdate es is c W = .ok (c', W') →
    (∀ i, c.inDirty.getD i false = true → i ∈ is) → (∀ b j, (b, j) ∈ c.lowerSet ↔ ∃ q, c.assigned[j]? = some q ∧ q.1 = b) →
    (∀ b j, (b, j) ∈ c.upperSet ↔ ∃ q, c.assigned[j]? = some q ∧ q.2 = b) → c.lowerSet.Nodup → c.upperSet.Nodup → MarkOK c → c.assigned.length = es.length →
    (∀ (idx : Nat) e, es[idx]? = some e → idx ∉ is → c.assigned[idx]? =
      some (lowSum (loF (frame W)) (upF (frame W)) e.1 + e.2, upSum (loF (frame W)) (upF (frame W)) e.1 + e.2)) →
    W' = W ∧ SameF c c' ∧ DistOK c' ∧ c'.dirty = [] ∧ c'.assigned.length = es.length ∧
    (∀ (idx : Nat) e, es[idx]? = some e → c'.assigned[idx]? =
      some (lowSum (loF (frame W)) (upF (frame W)) e.1 + e.2, upSum (loF (frame W)) (upF (frame W)) e.1 + e.2)) ∧
    c'.todoLower = c.todoLower ∧ c'.todoUpper = c.todoUpper ∧ c'.inTodoLower = c.inTodoLower ∧ c'.inTodoUpper = c.inTodoUpper
  | [], c, c', W, W', h, hd, hl, hu, nl, nu, hmk, hlen, hok => by
    obtain ⟨rfl, rfl⟩ := pure_iff.mp h
    refine ⟨rfl, ⟨rfl, rfl, rfl⟩, ⟨fun i hi => absurd (hd i hi) (by simp), hl, hu, nl, nu, hmk⟩, rfl, hlen, fun idx e he => hok idx e he (by simp), rfl, rfl, rfl, rfl⟩
  | i :: is, c, c', W, W', h, hd, hl, hu, nl, nu, hmk, hlen, hok => by
    unfold distinctUpdate at h
    cases he : es[i]? with
    | none => rw [he] at h; cases h
    | some e =>
      cases ha : c.assigned[i]? with
      | none => rw [he, ha] at h; cases h
      | some old =>
        rw [he, ha] at h
        dsimp only at h
        obtain ⟨S, W1, g1, h5⟩ := SM.bind_ok h
        obtain ⟨h1, rfl⟩ := liftRes_iff.mp g1
        obtain ⟨U, W2, g2, h6⟩ := SM.bind_ok h5
        obtain ⟨h2, rfl⟩ := liftRes_iff.mp g2
        obtain ⟨p, W3, g3, h7⟩ := SM.bind_ok h6
        obtain ⟨rfl, rfl⟩ := sumBounds_eff g3
        have hil : i < c.assigned.length := (List.getElem?_eq_some_iff.mp ha).1
        obtain ⟨a1, a2⟩ := set_replace (f := Prod.fst) nl hl ha h1
          (new := (lowSum (loF (frame W3)) (upF (frame W3)) e.1 + e.2, upSum (loF (frame W3)) (upF (frame W3)) e.1 + e.2))
        obtain ⟨b1, b2⟩ := set_replace (f := Prod.snd) nu hu ha h2
          (new := (lowSum (loF (frame W3)) (upF (frame W3)) e.1 + e.2, upSum (loF (frame W3)) (upF (frame W3)) e.1 + e.2))
        have q1 : ∀ j, (c.inDirty.set i false).getD j false = true → j ∈ is := by
          intro j hj
          by_cases hji : j = i
          · subst hji
            rw [List.getD_eq_getElem?_getD, List.getElem?_set] at hj
            rw [if_pos rfl] at hj
            split at hj <;> cases hj
          · have := hd j (by
              rw [List.getD_eq_getElem?_getD, List.getElem?_set_ne (fun e => hji e.symm)] at hj
              rw [List.getD_eq_getElem?_getD]; exact hj)
            rcases List.mem_cons.mp this with h | h
            · exact absurd h hji
            · exact h
        have q3 : ∀ (idx : Nat) e', es[idx]? = some e' → idx ∉ is → (c.assigned.set i (lowSum (loF (frame W3)) (upF (frame W3)) e.1 + e.2,
            upSum (loF (frame W3)) (upF (frame W3)) e.1 + e.2))[idx]? =
            some (lowSum (loF (frame W3)) (upF (frame W3)) e'.1 + e'.2, upSum (loF (frame W3)) (upF (frame W3)) e'.1 + e'.2) := by
          intro idx e' he' hni
          by_cases hji : idx = i
          · subst hji
            rw [List.getElem?_set_self hil]
            rw [he] at he'; injection he' with he'; subst he'
            rfl
          · rw [List.getElem?_set_ne (fun e => hji e.symm)]
            exact hok idx e' he' (by rw [List.mem_cons, not_or]; exact ⟨hji, hni⟩)
        obtain ⟨r1, r2, r3, r4, r5, r6, r7, r8, r9, r10⟩ := distinctUpdate_eff h7 q1 a2 b2 a1 b1 hmk (by simpa using hlen) q3
        exact ⟨r1, ⟨r2.con, r2.inactive, r2.alive⟩, r3, r4, r5, r6, r7, r8, r9, r10⟩

/-- Constraints in the queue have been informed about the bounds of their variables. -/
theorem Chk.counted {F : List VarState × Book} (h : Chk L A T F) {n : Nat} (hn : n ∈ T) {c : CState} (hc : F.2.cs[n]? = some c) (ha : c.alive = true) :
    Counted c (loF F) (upF F) := by
  obtain ⟨z1, z2⟩ := h.at.bi.quiet h.quiet
  have := (h.at.bi.track n c hc ha).counted ?_
  · have e1 : (viewF F).dl = loF F := by funext v; simp only [viewF]; rw [z1]; simp
    have e2 : (viewF F).du = upF F := by funext v; simp only [viewF]; rw [z2]; simp
    rw [← e1, ← e2]; exact this
  · intro s hs
    obtain ⟨l, hl, he⟩ := cuts_mem_levels hs
    rw [← he]
    exact h.at.bi.todo n (by rw [h.todo]; exact hn) c hc l hl

theorem Chk.set' {n : Nat} {c c' : CState} {F F' : List VarState × Book} (h : Chk L A T F) (hn : n ∈ T) (hc : F.2.cs[n]? = some c) (hs : SameF c c')
    (hk : c.alive = true → Counted c (loF F) (upF F) → Counted c' (loF F) (upF F)) (hF : F' = (F.1, { F.2 with cs := F.2.cs.set n c' })) :
    Chk L A T F' := by
  refine h.set hc hs.inactive (fun ha => ?_) hF
  have ha : c.alive = true := hs.alive ▸ ha
  refine ⟨ha, fun ht => ?_⟩
  obtain ⟨z1, z2⟩ := h.at.bi.quiet h.quiet
  have e1 : (viewF F).dl = loF F := by funext v; simp only [viewF]; rw [z1]; simp
  have e2 : (viewF F).du = upF F := by funext v; simp only [viewF]; rw [z2]; simp
  have hr : ∀ s ∈ (viewF F).segs, c.removableAt s.1 = false := by
    intro s hs
    obtain ⟨l, hl, he⟩ := cuts_mem_levels hs
    rw [← he]
    exact h.at.bi.todo n (by rw [h.todo]; exact hn) c hc l hl
  refine Tracked.intro ?_ ?_ ?_
  · rw [e1, e2]; exact hk ha (h.counted hn hc ha)
  · intro s hs'; rw [hs.removableAt]; exact hr s hs'
  · intro v; rw [hs.own]; exact ht.pres hr v

theorem keepC_distinctPropagate {cc : CC} {n : Nat} {l : Int} {es : List (List (Int × Nat) × Int)} (hn : n ∈ T) (W : World) (a : Bool) (W' : World)
    (hx : distinctPropagate cc n l es W = .ok (a, W')) (hc : ∀ c, W.book.cs[n]? = some c → c.con = .distinct l es) (h : Chk L A T (frame W)) :
    Chk L A T (frame W') := by
  unfold distinctPropagate at hx
  obtain ⟨c, W1, h1, h2⟩ := SM.bind_ok hx
  obtain ⟨⟨hcs, hal⟩, rfl⟩ := getCS_iff.mp h1
  obtain ⟨c', W2, h3, h4⟩ := SM.bind_ok h2
  obtain ⟨_, W3, h5, h6⟩ := SM.bind_ok h4
  injection h5 with h5
  obtain ⟨-, rfl⟩ := Prod.mk.inj h5
  have hcon := hc c hcs
  have hct := h.counted hn (c := c) hcs hal
  unfold Counted Mid at hct
  rw [hcon] at hct
  obtain ⟨k1, k2, k3, k4⟩ := hct
  obtain ⟨rfl, r2, r3, r4, r5, r6, -⟩ := distinctUpdate_eff h3 k1.mark k1.low k1.upp k1.nodupL k1.nodupU k1.todo k3 k4
  have hC : Chk L A T (frame { W2 with book.cs := W2.book.cs.set n c' }) := by
    refine h.set' hn (c := c) hcs r2 (fun _ _ => ?_) rfl
    unfold Counted Mid
    rw [r2.con, hcon]
    refine ⟨r3, ?_, r5, ?_⟩
    · intro i hi; cases hi
    · intro idx e he _; exact r6 idx e he
  refine Keep.keep (P := Chk L A T) ?_ _ _ _ h6 hC
  have hfin : Keep (Chk L A T) (getCS n >>= fun c => setCS n c.clearTodo >>= fun _ => (Pure.pure true : SM Bool)) :=
    Keep.setCS (fun _ => clearTodo_same) (fun _ => ⟨rfl, rfl, rfl⟩) (fun _ => Keep.fr Fr.pure)
  refine Keep.bind (Keep.fr fr_distinctTodo) (fun x => ?_)
  split
  · exact Keep.fr Fr.pure
  refine Keep.bind (Keep.fr fr_distinctTodo) (fun x => ?_)
  split
  · exact Keep.fr Fr.pure
  exact hfin

theorem keepC_propagateCS {cc : CC} {ck : Bool} {n : Nat} (hn : n ∈ T) (W : World) (a : Bool) (W' : World)
    (hx : propagateCS cc ck n W = .ok (a, W')) (h : Chk L A T (frame W)) : Chk L A T (frame W') := by
  unfold propagateCS at hx
  obtain ⟨c, W1, h1, h2⟩ := SM.bind_ok hx
  obtain ⟨⟨hcs, hal⟩, rfl⟩ := getCS_iff.mp h1
  cases hcon : c.con with
  | distinct l es =>
    rw [hcon] at h2
    refine keepC_distinctPropagate hn _ _ _ h2 ?_ h
    intro c2 hc2
    rw [hcs] at hc2; injection hc2 with hc2; subst hc2
    exact hcon
  | sum l r es => rw [hcon] at h2; exact keepC_sumPropagate.keep _ _ _ h2 h
  | minimize a es =>
    rw [hcon] at h2
    refine Keep.keep (P := Chk L A T) ?_ _ _ _ h2 h
    keep_auto
  | nonlinear l ca x y cb z r => rw [hcon] at h2; exact keepC_nonlinearPropagate.keep _ _ _ h2 h
  | disjoint l es => rw [hcon] at h2; exact keepC_disjointPropagate.keep _ _ _ h2 h

/-! ### Functions of the solver -/

theorem keepC_checkOne {cc : CC} {ck : Bool} {n : Nat} (hn : n ∈ T) : Keep (Chk L A T) (checkOne cc ck n) := by
  unfold checkOne
  refine Keep.setCS (f := fun c => { c with todo := false }) (fun _ => ⟨rfl, rfl, rfl, rfl, rfl, rfl, rfl, rfl, .refl _, id⟩) (fun _ => ⟨rfl, rfl, rfl⟩) (fun c => ?_)
  refine Keep.bind (Keep.fr Fr.qFalse) (fun b => ?_)
  split
  · exact ⟨fun W a W' h hp => keepC_propagateCS hn W a W' h hp⟩
  · keep_auto

theorem unmarkTodo_get {cs : List CState} {ns : List Nat} {m : Nat} : (Book.unmarkTodo cs ns)[m]? = cs[m]?.map (fun c => if m ∈ ns then { c with todo := false } else c) := by
  unfold Book.unmarkTodo
  exact foldl_modify (f := fun c => { c with todo := false }) (fun _ => rfl)

theorem unmark_eff {b : Book} {ns : List Nat} : MarkEff b { b with cs := Book.unmarkTodo b.cs ns } := by
  refine ⟨rfl, ?_, ?_, fun n hn => Or.inl hn⟩
  · unfold Book.unmarkTodo; exact foldl_modify_len
  · intro n c hc
    refine ⟨_, by rw [unmarkTodo_get, hc]; rfl, ?_, ?_⟩
    · split_ifs <;> exact ⟨rfl, rfl, rfl⟩
    · split_ifs <;> exact ⟨rfl, rfl, rfl, rfl, rfl, rfl, rfl, rfl, .refl _, id⟩

theorem keepC_checkTodo {cc : CC} {ck : Bool} : ∀ {ns : List Nat}, (∀ n ∈ ns, n ∈ T) → Keep (Chk L A T) (checkTodo cc ck ns)
  | [], _ => Keep.fr Fr.pure
  | n :: ns, hns => by
    unfold checkTodo
    refine Keep.bind (keepC_checkOne (hns n (List.mem_cons_self ..))) (fun b => ?_)
    split
    · refine Keep.bind ⟨fun W a W' h hp => ?_⟩ (fun _ => Keep.fr Fr.pure)
      rw [modify_iff] at h
      subst h
      exact ⟨hp.at.book (hp.at.bi.mark (vs := (frame W).1) (b := W.book) unmark_eff) rfl rfl, ⟨hp.quiet.low, hp.quiet.upp⟩, hp.todo⟩
    · exact keepC_checkTodo (fun m hm => hns m (List.mem_cons_of_mem _ hm))

theorem keep_integrateFacts {cc : CC} : Keep (At L A) (integrateFacts cc) := by
  unfold integrateFacts; keep_auto

/-- Delivery of changed bounds. -/
theorem deliver_eff {l : Lvl} {ls : List Lvl} {u : Unit} (h : deliver l.level W = .ok (u, W')) (ha : At (l :: ls) A (frame W)) :
    At (l :: ls) A (frame W') ∧ Still (frame W') := by
  unfold deliver at h
  obtain ⟨W1, W2, h1, h2⟩ := SM.bind_ok h
  obtain ⟨rfl, rfl⟩ := get_iff.mp h1
  obtain ⟨b1, W3, h3, h4⟩ := SM.bind_ok h2
  obtain ⟨h3, rfl⟩ := liftRes_iff.mp h3
  obtain ⟨b2, W4, h5, h6⟩ := SM.bind_ok h4
  obtain ⟨g5, rfl⟩ := liftRes_iff.mp h5
  rw [modify_iff] at h6
  subst h6
  obtain ⟨i1, i2, i3, i4⟩ := BI.uppers (vs := (frame W4).1) (l := l) (ls := ls) (us := W4.book.inUdiff) (b := W4.book) ha.lev ha.bi h3
  obtain ⟨j1, j2, j3, j4⟩ := BI.lowers (vs := (frame W4).1) (l := l) (ls := ls) (us := b1.inLdiff) (b := b1) (i4.trans ha.lev) i1 g5
  refine ⟨ha.book j1 rfl (j4.trans i4), ⟨j2, j3.trans i2⟩⟩

/-- Nothing is pending. -/
structure Settled (F : List VarState × Book) : Prop extends Still F where
  todo : F.2.todo = []

theorem checkLoop_eff {cc : CC} {ck : Bool} {l : Lvl} {ls : List Lvl} : ∀ {n : Nat} {W W' : World} {r : Bool}, checkLoop cc ck l.level n W = .ok (r, W') →
    At (l :: ls) A (frame W) → At (l :: ls) A (frame W') ∧ (r = true → Settled (frame W'))
  | 0, W, W', r, h, _ => by cases h
  | n + 1, W, W', r, h, ha => by
    unfold checkLoop at h
    obtain ⟨b, W1, h1, h2⟩ := SM.bind_ok h
    have a1 := keep_integrateFacts.keep _ _ _ h1 ha
    split at h2
    · obtain ⟨rfl, rfl⟩ := pure_iff.mp h2
      exact ⟨a1, fun h => by cases h⟩
    obtain ⟨_, W2, h3, h4⟩ := SM.bind_ok h2
    obtain ⟨a2, q2⟩ := deliver_eff h3 a1
    obtain ⟨W2', W3, h5, h6⟩ := SM.bind_ok h4
    obtain ⟨rfl, rfl⟩ := get_iff.mp h5
    obtain ⟨ret, W4, h7, h8⟩ := SM.bind_ok h6
    have c4 : Chk (l :: ls) A W3.book.todo (frame W4) := (keepC_checkTodo (fun _ h => h)).keep _ _ _ h7 ⟨a2, q2, rfl⟩
    obtain ⟨_, W5, h9, h10⟩ := SM.bind_ok h8
    rw [modify_iff] at h9
    subst h9
    have a5 : At (l :: ls) A (frame { W4 with book.todo := [] }) := by
      refine c4.at.book ?_ rfl rfl
      exact c4.at.bi.setAll (vs := (frame W4).1) (b := W4.book) (cs' := W4.book.cs) (todo' := []) rfl
        (fun n c hc => ⟨c, hc, rfl, fun h => ⟨h, id⟩⟩) (by simp)
    have s5 : Settled (frame { W4 with book.todo := [] }) := ⟨⟨c4.quiet.low, c4.quiet.upp⟩, rfl⟩
    obtain ⟨W6, W7, h11, h12⟩ := SM.bind_ok h10
    obtain ⟨rfl, rfl⟩ := get_iff.mp h11
    split at h12
    · obtain ⟨rfl, rfl⟩ := pure_iff.mp h12
      exact ⟨a5, fun _ => s5⟩
    · exact checkLoop_eff h12 a5

theorem solverCheck_eff {cc : CC} {ck : Bool} {n : Nat} {r : Bool} (h : solverCheck cc ck n W = .ok (r, W')) (ha : At L A (frame W)) :
    At L A (frame W') ∧ (r = true → (∀ l ∈ L.head?, cc.level = l.level ∨ l.level < W.book.minimizeLevel) ∨ Settled (frame W) → Settled (frame W')) := by
  unfold solverCheck at h
  obtain ⟨l, W1, h1, h2⟩ := SM.bind_ok h
  obtain ⟨rfl, ls, rfl⟩ := curLevel_at h1 ha
  obtain ⟨W2, W3, h3, h4⟩ := SM.bind_ok h2
  obtain ⟨rfl, rfl⟩ := get_iff.mp h3
  split at h4
  · rename_i hc
    obtain ⟨rfl, rfl⟩ := pure_iff.mp h4
    refine ⟨ha, fun _ h => ?_⟩
    rcases h with h | h
    · rcases h l rfl with h | h <;> omega
    · exact h
  · obtain ⟨a, b⟩ := checkLoop_eff h4 ha
    exact ⟨a, fun h _ => b h⟩

end Clingcon
