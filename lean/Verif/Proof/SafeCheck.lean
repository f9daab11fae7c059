import Verif.Proof.SafeSum
import Verif.Proof.Queue
import Verif.Proof.Kons
import Verif.Proof.Rounds
import Verif.Proof.CoverUndo
import Verif.Proof.Inactive

/-! `check` returns if all constraints are linear. -/
set_option linter.unusedSimpArgs false
set_option linter.unusedVariables false
namespace Clingcon
open Spec VarState

variable {α γ : Type} {W W0 W' : World} {cc : CC} {L : List Lvl} {A : (Nat → Nat → Int) × (Nat → Nat → Int) × Nat} {T : List Nat}

theorem linearOnly_of (h : LinearOnly W) (hk : konsB W'.book = konsB W.book) (ha : ∀ n, (qview W'.book).ok n → (qview W.book).ok n) : LinearOnly W' := by
  refine ⟨fun n c hc hal => ?_, fun b hb => h.bound b ?_⟩
  · obtain ⟨c0, h0, h1⟩ := qok_iff.mp (ha n (qok_iff.mpr ⟨c, hc, hal⟩))
    have e : (konsB W'.book).1[n]? = (konsB W.book).1[n]? := by rw [hk]
    unfold konsB at e
    rw [List.getElem?_map, List.getElem?_map, hc, h0] at e
    injection e with e
    have e : c.con = c0.con := e
    rw [e]
    exact h.con n c0 h0 h1
  · have : (konsB W'.book).2 = (konsB W.book).2 := by rw [hk]
    exact this.symm.trans hb

/-- The variables of a constraint exist. -/
theorem BI.varsOf {F : List VarState × Book} (h : BI F) {n : Nat} {c : CState} (hc : F.2.cs[n]? = some c) (ha : c.alive = true) {w : Int × Nat} (hw : w ∈ c.con.watches) :
    w.2 < F.1.length := by
  obtain ⟨aL, aU, -, hs⟩ := h.track n c hc ha
  have ho : own c w.2 ≠ [] := by
    unfold own
    have : w ∈ c.con.watches.filter (fun x => x.2 == w.2) := List.mem_filter.mpr ⟨hw, by simp⟩
    intro e
    rw [List.map_eq_nil_iff] at e
    rw [e] at this
    cases this
  generalize aL w.2 = x, aU w.2 = y at hs
  have h0 := hs w.2
  revert h0
  generalize aL w.2 = x, aU w.2 = y
  intro h0
  cases h0 with
  | none _ _ h1 => exact absurd h1 ho
  | pres h1 =>
    have : (viewF F).have n w.2 ≠ [] := fun e => ho (by rw [e] at h1; exact List.nil_perm.mp h1)
    by_contra hl
    apply this
    have : F.2.watches.getD w.2 [] = [] := by
      rw [List.getD_eq_getElem?_getD, List.getElem?_eq_none (by have := h.lenW; omega)]
      rfl
    unfold View.have
    show (F.2.watches.getD w.2 []).filter _ = []
    rw [this]
    rfl
  | gone s h0 h1 h2 =>
    have : gones s n w.2 ≠ [] := fun e => ho (by rw [e] at h2; exact List.nil_perm.mp h2)
    obtain ⟨r, hr⟩ := List.exists_mem_of_ne_nil _ this
    unfold gones at hr
    obtain ⟨hr1, hr2⟩ := List.mem_filter.mp hr
    have hr3 : r ∈ F.2.removed := cuts_sub h0 r hr1
    have := (h.rngR r hr3).1
    simp at hr2
    omega

/-- The coefficients of watches of linear constraints. -/
theorem BI.coeff {F : List VarState × Book} (h : BI F) {n v : Nat} {i : Int} {c : CState} (hc : F.2.cs[n]? = some c) (ha : c.alive = true) (hw : (i, n) ∈ wtF F v) :
    (i, v) ∈ c.con.watches := by
  obtain ⟨aL, aU, -, hs⟩ := h.track n c hc ha
  have hm : (i, n) ∈ (viewF F).have n v := List.mem_filter.mpr ⟨hw, by simp⟩
  have h0 := hs v
  revert h0
  generalize aL v = x, aU v = y
  intro h0
  cases h0 with
  | none _ _ _ h2 => rw [h2] at hm; cases hm
  | gone _ _ h1 => rw [h1] at hm; cases hm
  | pres h1 =>
    have : i ∈ own c v := h1.mem_iff.mp (List.mem_map.mpr ⟨_, hm, rfl⟩)
    unfold own at this
    obtain ⟨w, hw1, hw2⟩ := List.mem_map.mp this
    obtain ⟨hw3, hw4⟩ := List.mem_filter.mp hw1
    have : w = (i, v) := by
      obtain ⟨a, b⟩ := w
      simp at hw2 hw4
      rw [hw2, hw4]
    rw [← this]; exact hw3

/-! ### The queue -/

/-- The state while the queue is processed. -/
structure Ck (cc : CC) (L : List Lvl) (A : (Nat → Nat → Int) × (Nat → Nat → Int) × Nat) (T : List Nat) (W : World) : Prop where
  rd : Rd cc W
  chk : Chk L A T (frame W)
  ok : ∀ n ∈ T, (qview W.book).ok n
  lin : LinearOnly W

theorem linear_watches {c : Constr} (h : linearCon c) : ∀ p ∈ c.watches, p.1 ≠ 0 := by
  cases c with
  | sum l r es => exact h.2
  | minimize a es => exact h
  | distinct l es => exact h.elim
  | disjoint l es => exact h.elim
  | nonlinear => exact h.elim

theorem lowSum_le {lo up : Nat → Int} (h : ∀ v, lo v ≤ up v) : ∀ {es : List (Int × Nat)}, lowSum lo up es ≤ upSum lo up es
  | [] => le_rfl
  | (co, v) :: es => by
    have ih := lowSum_le h (es := es)
    have hv := h v
    unfold upSum at ih ⊢
    unfold lowSum
    rcases Int.lt_or_le 0 co with hc | hc
    · rw [if_pos hc, if_pos hc]
      have : co * lo v ≤ co * up v := Int.mul_le_mul_of_nonneg_left hv (by omega)
      omega
    · have : co * up v ≤ co * lo v := Int.mul_le_mul_of_nonpos_left hc hv
      rw [if_neg (by omega), if_neg (by omega)]
      omega

theorem Ck.sumOk {n : Nat} {c : CState} {es : List (Int × Nat)} (h : Chk L A T (frame W)) (hn : n ∈ T) (hc : W.book.cs[n]? = some c) (ha : c.alive = true)
    (hnest : AllNested W) (he : (∃ l r, c.con = .sum l r es) ∨ ∃ a, c.con = .minimize a es) (hv : ∀ p ∈ es, p.2 < W.vars.length) : SumOk c es W := by
  obtain ⟨p, hp⟩ := Ok.sumBounds hv
  obtain ⟨-, e⟩ := sumBounds_eff hp
  have hk := h.counted hn (c := c) hc ha
  have hk : c.lower = lowSum (loF (frame W)) (upF (frame W)) es ∧ c.upper = upSum (loF (frame W)) (upF (frame W)) es := by
    unfold Counted Mid at hk
    rcases he with ⟨l, r, he⟩ | ⟨a, he⟩ <;> (rw [he] at hk; simpa [signSum] using hk)
  refine ⟨p, hp, by rw [e, hk.1], by rw [e, hk.2], ?_⟩
  rw [e]
  refine lowSum_le (fun v => ?_)
  unfold loF upF
  cases hx : (frame W).1[v]? with
  | none => exact le_rfl
  | some y => exact (hnest y (List.mem_of_getElem? hx)).le

theorem Ck.checkOne {n : Nat} {ck : Bool} (h : Ck cc L A T W) (hr : Responsive cc) (hL : L ≠ []) (hn : n ∈ T) :
    Yes (checkOne cc ck n) (fun r W' => r = true → Ck cc L A T W') W := by
  have key : Yes (Clingcon.checkOne cc ck n) (fun r W' => r = true → Rd cc W') W := by
    obtain ⟨c, hc, ha⟩ := qok_iff.mp (h.ok n hn)
    unfold Clingcon.checkOne
    refine Yes.step (getCS_iff.mpr ⟨⟨hc, ha⟩, rfl⟩) ?_
    refine Yes.stepU (W1 := { W with book.cs := W.book.cs.set n { c with todo := false } }) rfl ?_
    refine Yes.step (qFalse_iff.mpr ⟨rfl, rfl⟩) ?_
    have rd1 : Rd cc { W with book.cs := W.book.cs.set n { c with todo := false } } := h.rd.book _
    have hc1 : ({ W with book.cs := W.book.cs.set n { c with todo := false } } : World).book.cs[n]? = some { c with todo := false } :=
      List.getElem?_set_self (List.getElem?_eq_some_iff.mp hc).1
    have chk1 : Chk L A T (frame { W with book.cs := W.book.cs.set n { c with todo := false } }) :=
      h.chk.set' hn (c := c) hc (SameF.todo c false) (fun _ hk => Counted.same (SameC.todo c false) hk) rfl
    have hl1 : ({ W with book.cs := W.book.cs.set n { c with todo := false } } : World).book.levels ≠ [] := by
      have : (frame W).2.levels = L := h.chk.at.lev
      intro e
      exact hL (this.symm.trans e)
    have hmb : ({ W with book.cs := W.book.cs.set n { c with todo := false } } : World).book.minimizeBound = W.book.minimizeBound := rfl
    generalize ({ W with book.cs := W.book.cs.set n { c with todo := false } } : World) = W1 at *
    have hlin := h.lin.con n c hc ha
    have hvars : ∀ p ∈ c.con.watches, p.2 < W1.vars.length := fun p hp => by
      have := chk1.at.bi.varsOf (n := n) hc1 ha hp
      simpa [frame] using this
    split
    · rename_i hf
      have hf : cc.isFalse W1.log c.con.lit = false := by simpa using hf
      unfold propagateCS
      refine Yes.step (getCS_iff.mpr ⟨⟨hc1, ha⟩, rfl⟩) ?_
      dsimp only
      have hw := linear_watches hlin
      cases hcon : c.con with
      | sum l r es =>
        rw [hcon] at hvars hlin hf hw
        dsimp only
        exact rd1.sumPropagate hr hl1 (fun p hp => ⟨hw p hp, hvars p hp⟩) hlin.1 hc1 ha
          (fun _ => Ck.sumOk chk1 hn hc1 ha rd1.nest (Or.inl ⟨l, r, hcon⟩) hvars) hf
      | minimize a es =>
        rw [hcon] at hvars hlin hf hw
        dsimp only
        refine Yes.step (get_iff.mpr ⟨rfl, rfl⟩) ?_
        cases hb : W1.book.minimizeBound with
        | none =>
          refine Yes.step (a := none) (W1 := W1) (liftRes_iff.mpr ⟨by unfold minimizeRhs; rw [hb], rfl⟩) ?_
          exact Yes.pure (fun _ => rd1)
        | some b =>
          have hbd : MIN_VAL ≤ b ∧ b ≤ MAX_VAL := h.lin.bound b (hmb ▸ hb)
          refine Yes.step (a := some b) (W1 := W1) (liftRes_iff.mpr ⟨by unfold minimizeRhs; rw [hb]; dsimp only; rw [if_neg (by omega)], rfl⟩) ?_
          dsimp only
          exact rd1.sumPropagate hr hl1 (fun p hp => ⟨hw p hp, hvars p hp⟩) (by decide) hc1 ha
            (fun _ => Ck.sumOk chk1 hn hc1 ha rd1.nest (Or.inr ⟨a, hcon⟩) hvars) hf
      | distinct l es => rw [hcon] at hlin; exact hlin.elim
      | disjoint l es => rw [hcon] at hlin; exact hlin.elim
      | nonlinear => rw [hcon] at hlin; exact hlin.elim
    · exact Yes.bind (markInactive_yes (R := fun W' => Rd cc W') rd1 hl1 (fun l _ => rd1.book _)) (fun _ W2 _ hk => Yes.pure (fun _ => hk))
  refine key.post (fun r W' hx hp hrt => ?_)
  have hu := unmarked_checkOne hx
  have hok : ∀ k, (qview W'.book).ok k ↔ (qview W.book).ok k := by
    intro k
    unfold QView.ok
    rw [hu.flags]
    cases (qview W.book).flags[k]? with
    | none => simp
    | some f => obtain ⟨a, b⟩ := f; simp
  exact ⟨hp hrt, (keepC_checkOne hn).keep _ _ _ hx h.chk, fun k hk => (hok k).mpr (h.ok k hk),
    linearOnly_of h.lin (keepK_checkOne.keep _ _ _ hx rfl) (fun k hk => (hok k).mp hk)⟩

theorem Ck.checkTodo {ck : Bool} (hr : Responsive cc) (hL : L ≠ []) : ∀ {ns : List Nat} {W : World}, Ck cc L A T W → (∀ n ∈ ns, n ∈ T) →
    Yes (checkTodo cc ck ns) (fun r W' => r = true → Ck cc L A T W') W
  | [], W, h, _ => Yes.pure (fun _ => h)
  | n :: ns, W, h, hns => by
    unfold Clingcon.checkTodo
    refine Yes.bind (h.checkOne hr hL (hns n (List.mem_cons_self ..))) (fun b W1 hx hb => ?_)
    split
    · exact Yes.stepU (modify_iff.mpr rfl) (Yes.pure (fun h => by cases h))
    · rename_i hb1
      exact Ck.checkTodo hr hL (hb (by simpa using hb1)) (fun m hm => hns m (List.mem_cons_of_mem _ hm))

/-! ### Informing the constraints -/

theorem CState.update_ok {c : CState} {i d : Int} (hi : i ≠ 0) (hd : d ≠ 0) : ∃ r, c.update i d = .ok r := by
  have hs : ∃ r, c.updateSum i d = .ok r := by
    unfold CState.updateSum
    rw [if_neg (Int.mul_ne_zero hi hd)]
    split <;> exact ⟨_, rfl⟩
  unfold CState.update
  split
  · exact hs
  · exact hs
  all_goals exact ⟨_, rfl⟩

theorem markTodo_len {b : Book} {n : Nat} : (b.markTodo n).cs.length = b.cs.length := by
  unfold Book.markTodo
  split
  · rfl
  · split_ifs <;> simp

theorem updateWatches_ok {level var : Nat} {d : Int} (hd : d ≠ 0) : ∀ {ws : List (Int × Nat)} {b : Book}, (∀ w ∈ ws, w.1 ≠ 0 ∧ w.2 < b.cs.length) →
    ∃ p, Book.updateWatches level var d ws b = .ok p
  | [], b, _ => ⟨_, rfl⟩
  | (i, n) :: ws, b, h => by
    obtain ⟨hi, hn⟩ := h _ (List.mem_cons_self ..)
    unfold Book.updateWatches
    rw [List.getElem?_eq_getElem hn]
    dsimp only
    split
    · exact updateWatches_ok hd (b := { b with removed := b.removed ++ [(var, i, n)] }) (fun w hw => h w (List.mem_cons_of_mem _ hw))
    · obtain ⟨r, hr⟩ := CState.update_ok (c := b.cs[n]) hi hd
      rw [hr]
      simp only [bind, Except.bind]
      have key : ∀ b1 : Book, b1.cs.length = b.cs.length → ∃ p, Book.updateWatches level var d ws b1 = .ok p :=
        fun b1 e => updateWatches_ok hd (fun w hw => by rw [e]; exact h w (List.mem_cons_of_mem _ hw))
      obtain ⟨p, hp⟩ := key (if r.1 = true then ({ b with cs := b.cs.set n r.2 } : Book).markTodo n else { b with cs := b.cs.set n r.2 }) (by
        split
        · rw [markTodo_len]; simp
        · simp)
      rw [hp]
      exact ⟨_, rfl⟩

/-- Watches refer to existing constraints, and their indices are different from zero. -/
def NzB (b : Book) : Prop := ∀ v, ∀ w ∈ b.watches.getD v [], w.1 ≠ 0 ∧ w.2 < b.cs.length

theorem updateConstraints_yes {level var : Nat} {d : Int} (hd : d ≠ 0) {b : Book} (h : NzB b) (hv : var < b.watches.length) :
    ∃ b', Book.updateConstraints level var d b = .ok b' ∧ NzB b' ∧ b'.watches.length = b.watches.length ∧ b'.udiff = b.udiff ∧ b'.ldiff = b.ldiff ∧ b'.inLdiff = b.inLdiff := by
  unfold Book.updateConstraints
  rw [List.getElem?_eq_getElem hv]
  have hw : b.watches.getD var [] = b.watches[var] := by rw [List.getD_eq_getElem?_getD, List.getElem?_eq_getElem hv]; rfl
  have hws : ∀ w ∈ b.watches[var], w.1 ≠ 0 ∧ w.2 < b.cs.length := fun w hm => h var w (by rw [hw]; exact hm)
  obtain ⟨p, hp⟩ := updateWatches_ok (level := level) (var := var) hd hws
  obtain ⟨added, e⟩ := updateWatches_eff hp
  have hsub := (updateWatches_sub hp).1
  dsimp only
  rw [hp]
  have e1 : p.2.watches = b.watches := by rw [e.rest]
  refine ⟨_, rfl, ?_, by simp [e1], by rw [e.rest], by rw [e.rest], by rw [e.rest]⟩
  intro v w hm
  dsimp only at hm ⊢
  rw [e.len]
  rw [e1] at hm
  rcases mem_getD_set hm with g | g
  · exact hws w (hsub w g)
  · exact h v w g

theorem updateUppers_ok {level : Nat} : ∀ {us : List Nat} {b : Book}, us.Nodup → NzB b → (∀ v ∈ us, v < b.watches.length ∧ b.udiff.getD v 0 ≠ 0) →
    ∃ b', Book.updateUppers level us b = .ok b' ∧ NzB b' ∧ b'.watches.length = b.watches.length ∧ b'.ldiff = b.ldiff ∧ b'.inLdiff = b.inLdiff
  | [], b, _, h, _ => ⟨_, rfl, h, rfl, rfl, rfl⟩
  | v :: us, b, hn, h, hu => by
    obtain ⟨h1, h2⟩ := hu v (List.mem_cons_self ..)
    obtain ⟨b1, k1, k2, k3, k4, k5, k6⟩ := updateConstraints_yes (level := level) h2 h h1
    unfold Book.updateUppers
    simp only [bind, Except.bind]
    rw [k1]
    dsimp only
    obtain ⟨hn1, hn2⟩ := List.nodup_cons.mp hn
    obtain ⟨b2, m1, m2, m3, m4, m5⟩ := updateUppers_ok (level := level) (us := us) (b := { b1 with udiff := b1.udiff.set v 0 }) hn2 k2 (fun w hw => by
      obtain ⟨g1, g2⟩ := hu w (List.mem_cons_of_mem _ hw)
      refine ⟨by dsimp only; omega, ?_⟩
      dsimp only
      rw [List.getD_eq_getElem?_getD, List.getElem?_set_ne (fun e : v = w => hn1 (by rw [e]; exact hw)), k4, ← List.getD_eq_getElem?_getD]
      exact g2)
    exact ⟨b2, m1, m2, m3.trans k3, m4.trans k5, m5.trans k6⟩

theorem updateLowers_ok {level : Nat} : ∀ {us : List Nat} {b : Book}, us.Nodup → NzB b → (∀ v ∈ us, v < b.watches.length ∧ b.ldiff.getD v 0 ≠ 0) →
    ∃ b', Book.updateLowers level us b = .ok b'
  | [], b, _, h, _ => ⟨_, rfl⟩
  | v :: us, b, hn, h, hu => by
    obtain ⟨h1, h2⟩ := hu v (List.mem_cons_self ..)
    obtain ⟨b1, k1, k2, k3, k4, k5, k6⟩ := updateConstraints_yes (level := level) h2 h h1
    unfold Book.updateLowers
    simp only [bind, Except.bind]
    rw [k1]
    dsimp only
    obtain ⟨hn1, hn2⟩ := List.nodup_cons.mp hn
    exact updateLowers_ok (level := level) (us := us) (b := { b1 with ldiff := b1.ldiff.set v 0 }) hn2 k2 (fun w hw => by
      obtain ⟨g1, g2⟩ := hu w (List.mem_cons_of_mem _ hw)
      refine ⟨by dsimp only; omega, ?_⟩
      dsimp only
      rw [List.getD_eq_getElem?_getD, List.getElem?_set_ne (fun e : v = w => hn1 (by rw [e]; exact hw)), k5, ← List.getD_eq_getElem?_getD]
      exact g2)

theorem deliver_ok {level : Nat} (hb : BI (frame W)) (hq : QF false (frame W)) (hl : LinearOnly W) : ∃ W', deliver level W = .ok ((), W') := by
  have nz : NzB W.book := by
    intro v w hw
    obtain ⟨c, hc, ha⟩ := qok_iff.mp (hq.wt v w hw)
    refine ⟨?_, (List.getElem?_eq_some_iff.mp hc).1⟩
    exact linear_watches (hl.con _ c hc ha) (w.1, v) (hb.coeff (F := frame W) (v := v) (n := w.2) (i := w.1) hc ha hw)
  have rng : ∀ (d : List Int) v, d.length = (frame W).1.length → d.getD v 0 ≠ 0 → v < W.book.watches.length := by
    intro d v hd hne
    by_contra hlt
    apply hne
    have : W.book.watches.length = (frame W).1.length := hb.lenW
    rw [List.getD_eq_getElem?_getD, List.getElem?_eq_none (by omega)]
    rfl
  obtain ⟨b1, k1, k2, k3, k4, k5⟩ := updateUppers_ok (level := level) (us := W.book.inUdiff) hb.upp.nodupC nz (fun v hv => by
    have h1 : W.book.udiff.getD v 0 ≠ 0 := fun e => (hb.upp.chgd v).mp hv (by show -(W.book.udiff.getD v 0) = 0; rw [e]; rfl)
    exact ⟨rng _ v hb.lenU h1, h1⟩)
  obtain ⟨b2, m1⟩ := updateLowers_ok (level := level) (us := b1.inLdiff) (b := b1) (by rw [k5]; exact hb.low.nodupC) k2 (fun v hv => by
    rw [k5] at hv
    have h1 : W.book.ldiff.getD v 0 ≠ 0 := (hb.low.chgd v).mp hv
    rw [k3, k4]
    exact ⟨rng _ v hb.lenL h1, h1⟩)
  refine ⟨{ W with book := b2 }, ?_⟩
  unfold deliver
  refine bind_iff.mpr ⟨W, W, rfl, bind_iff.mpr ⟨b1, W, liftRes_iff.mpr ⟨k1, rfl⟩, bind_iff.mpr ⟨b2, W, liftRes_iff.mpr ⟨m1, rfl⟩, ?_⟩⟩⟩
  exact modify_iff.mpr rfl

theorem deliver_aview {level : Nat} {u : Unit} (h : deliver level W = .ok (u, W')) : aview W'.book = aview W.book := by
  unfold deliver at h
  obtain ⟨W1, W2, h1, h2⟩ := SM.bind_ok h
  obtain ⟨rfl, rfl⟩ := get_iff.mp h1
  obtain ⟨b1, W3, h3, h4⟩ := SM.bind_ok h2
  obtain ⟨h3, rfl⟩ := liftRes_iff.mp h3
  obtain ⟨b2, W4, h5, h6⟩ := SM.bind_ok h4
  obtain ⟨g5, rfl⟩ := liftRes_iff.mp h5
  rw [modify_iff] at h6
  subst h6
  exact (updateLowers_aview g5).trans (updateUppers_aview h3)

/-! ### The loop -/

theorem At.flat (h : At L A (frame W)) (hL : L = [baseLvl]) : Level0 W := by
  subst hL
  have hb := h.bi.base h.lev
  intro vs hv
  obtain ⟨i, hi⟩ := List.mem_iff_getElem?.mp hv
  have a1 := hb.stL i
  have a2 := hb.stU i
  unfold lstF at a1
  unfold ustF at a2
  rw [hi] at a1 a2
  exact ⟨a1, List.map_eq_nil_iff.mp a2⟩

/-- The state at the beginning of a round. -/
structure Rv (cc : CC) (L : List Lvl) (A : (Nat → Nat → Int) × (Nat → Nat → Int) × Nat) (W : World) : Prop where
  rd : Rd cc W
  fc : cc.level = 0 → FC W
  «at» : At L A (frame W)
  q : QF false (frame W)
  lin : LinearOnly W

theorem Rv.integrateFacts (h : Rv cc L A W) (hr : Responsive cc) (hL : L ≠ []) (h0 : cc.level = 0 → L = [baseLvl]) :
    Yes (integrateFacts cc) (fun r W' => r = true → Rv cc L A W') W := by
  by_cases hc : cc.level = 0
  · have key : Ok (Clingcon.integrateFacts cc) W := by
      unfold Clingcon.integrateFacts
      refine Ok.step (get_iff.mpr ⟨rfl, rfl⟩) ?_
      split
      · exact Ok.pure
      · refine Ok.stepU (assertS_iff.mpr ⟨by rw [hc]; rfl, rfl⟩) ?_
        exact Ok.updateDomain (h.fc hc) h.rd.nest (by have : (frame W).2.levels = L := h.at.lev; intro e; exact hL (this.symm.trans e)) (one_true hr).1 (fun _ => hc)
    obtain ⟨r, W1, hx⟩ := key
    refine ⟨r, W1, hx, fun hrt => ?_⟩
    subst hrt
    have fc1 := kt_integrateFacts.kt _ _ hx (h.fc hc)
    have at1 := keep_integrateFacts.keep _ _ _ hx h.at
    have q1 : qview W1.book = qview W.book := keepQ_integrateFacts.keep _ _ _ hx rfl
    refine ⟨⟨fc1.ti, (kw_integrateFacts nested_prim.toPrimU.toPrimD).kw _ _ _ hx h.rd.nest, fun _ => at1.flat (h0 hc), fun hn => absurd hc hn, fun hn => absurd hc hn,
      fun hn => absurd hc hn, fun hn => absurd hc hn⟩, fun _ => fc1, at1, ?_, linearOnly_of h.lin (keepK_integrateFacts.keep _ _ _ hx rfl) (fun n hn => by rwa [q1] at hn)⟩
    show QI false (qview W1.book)
    rw [q1]
    exact h.q
  · unfold Clingcon.integrateFacts
    refine Yes.step (get_iff.mpr ⟨rfl, rfl⟩) ?_
    rw [h.rd.facts hc]
    exact Yes.pure (fun _ => h)

theorem Rv.deliver {l : Lvl} {ls : List Lvl} (h : Rv cc (l :: ls) A W) : Yes (deliver l.level) (fun _ W' => Rv cc (l :: ls) A W' ∧ Still (frame W')) W := by
  obtain ⟨W1, hx⟩ := deliver_ok (level := l.level) h.at.bi h.q h.lin
  obtain ⟨a1, s1⟩ := deliver_eff hx h.at
  have q1 := q_deliver.keep _ _ _ hx h.q
  have k1 : konsB W1.book = konsB W.book := keepK_deliver.keep _ _ _ hx rfl
  have fc1 : cc.level = 0 → FC W1 := fun h0 => (kw_deliver fc_prim.toPrim0).kw _ _ _ hx (h.fc h0)
  have av : W1.book.cs.map acon = W.book.cs.map acon := congrArg Prod.fst (deliver_aview hx)
  obtain ⟨b, rfl, -⟩ := deliver_only hx
  refine ⟨(), _, hx, ⟨h.rd.book _, fc1, a1, q1, linearOnly_of h.lin k1 (fun n hn => ?_)⟩, s1⟩
  obtain ⟨c, hc, ha⟩ := qok_iff.mp hn
  have e : (({ W with book := b } : World).book.cs.map acon)[n]? = (W.book.cs.map acon)[n]? := by rw [av]
  rw [List.getElem?_map, List.getElem?_map, hc] at e
  cases h0 : W.book.cs[n]? with
  | none => rw [h0] at e; cases e
  | some c0 =>
    rw [h0] at e
    injection e with e
    have := congrArg Prod.fst e
    exact qok_iff.mpr ⟨c0, h0, by rw [← ha]; exact this.symm⟩

theorem Rv.rounds {ck : Bool} {l : Lvl} {ls : List Lvl} (hr : Responsive cc) (h0 : cc.level = 0 → l :: ls = [baseLvl]) : ∀ {n : Nat} {W : World}, Rv cc (l :: ls) A W →
    Ok (checkRounds (pure true) cc ck l.level n) W
  | 0, W, h => Ok.pure
  | n + 1, W, h => by
    unfold checkRounds
    obtain ⟨b, W1, h1, k1⟩ := h.integrateFacts hr (by simp) h0
    refine Ok.step h1 ?_
    cases b with
    | false => exact Ok.pure
    | true =>
    rw [if_neg (by decide)]
    obtain ⟨u, W2, h2, k2, s2⟩ := (k1 rfl).deliver
    refine Ok.step h2 (Ok.step (get_iff.mpr ⟨rfl, rfl⟩) ?_)
    have ck2 : Ck cc (l :: ls) A W2.book.todo W2 := ⟨k2.rd, ⟨k2.at, s2, rfl⟩, fun n hn => k2.q.td n hn, k2.lin⟩
    obtain ⟨ret, W3, h3, k3⟩ := ck2.checkTodo (ck := ck) hr (by simp) (fun _ h => h)
    refine Ok.step h3 (Ok.stepU (modify_iff.mpr rfl) (Ok.step (get_iff.mpr ⟨rfl, rfl⟩) ?_))
    cases ret with
    | false => exact Ok.pure
    | true =>
    dsimp only
    split
    · exact Ok.pure
    have c3 := k3 rfl
    refine Rv.rounds hr h0 ⟨c3.rd.book _, fun hc => ?_, ?_, ?_, ?_⟩
    · exact fc_prim.book _ _ rfl ((kw_checkTodo fc_prim.toPrim0).kw _ _ _ h3 (k2.fc hc))
    · refine c3.chk.at.book ?_ rfl rfl
      exact c3.chk.at.bi.setAll (vs := (frame W3).1) (b := W3.book) (cs' := W3.book.cs) (todo' := []) rfl
        (fun n c hc => ⟨c, hc, rfl, fun h => ⟨h, id⟩⟩) (by simp)
    · exact QI.cleared (m := false) k2.q (unmarked_checkTodo h3)
    · exact ⟨c3.lin.con, c3.lin.bound⟩

theorem check_returns {ck : Bool} {n : Nat} (hr : Responsive cc) (hfc : FC W) (hn : AllNested W) (hw : WI W) (hq : QF false (frame W)) (hlin : LinearOnly W)
    (hl : cc.level = 0 → W.level = 0) (hb : cc.level ≠ 0 → BoundLits cc W ∧ OutLits cc W ∧ NewLits cc W ∧ W.factmap = []) (hs : domainSize W + 1 < n) :
    Ok (solverCheck cc ck n) W := by
  unfold Ok
  rw [← checkWith_eq (stop := pure true) hfc.ti hn hw hl hs]
  unfold checkWith
  obtain ⟨l, ls, hls⟩ := List.exists_cons_of_ne_nil hw.ne
  have : Ok (checkWith (pure true) cc ck n) W := by
    unfold checkWith
    refine Ok.step (curLevel_iff.mpr ⟨by rw [hls]; rfl, rfl⟩) (Ok.step (get_iff.mpr ⟨rfl, rfl⟩) ?_)
    split
    · exact Ok.pure
    have hat : At (l :: ls) (alF (frame W), auF (frame W), (frame W).1.length) (frame W) := ⟨hw.bi, hls, fun _ _ _ _ _ => ⟨rfl, rfl⟩, rfl⟩
    have h0 : cc.level = 0 → l :: ls = [baseLvl] := fun hc => by
      rw [← hls]
      refine hw.levels ?_
      have h1 := hl hc
      unfold World.level at h1
      rw [hls] at h1
      have hd : (W.book.levels.map (·.level)).Pairwise (· > ·) := hw.bi.dec
      rw [hls] at hd ⊢
      cases ls with
      | nil => rfl
      | cons m ms =>
        simp only [List.map_cons, List.pairwise_cons] at hd
        have := hd.1 m.level (List.mem_cons_self ..)
        have h1 : l.level = 0 := h1
        omega
    exact Rv.rounds hr h0 ⟨⟨hfc.ti, hn, fun hc => hat.flat (h0 hc), fun hc => (hb hc).1, fun hc => (hb hc).2.1, fun hc => (hb hc).2.2.1, fun hc => (hb hc).2.2.2⟩, fun _ => hfc, hat, hq, hlin⟩
  exact this

end Clingcon
