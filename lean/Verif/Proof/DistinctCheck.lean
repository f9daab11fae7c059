import Verif.Proof.DistinctDetect
import Verif.Proof.CoverCheck
import Verif.Proof.Nested

/-! Elements of distinct constraints that are fixed to the same value: the function `check`. -/
set_option linter.unusedSimpArgs false
set_option linter.unusedVariables false
namespace Clingcon
open Spec VarState

variable {α γ : Type} {W W' : World} {cc : CC} {n k : Nat} {c : CState} {X : List VarState}

/-! ### States of other constraints -/

/-- The state of a constraint and the bounds of the variables. -/
def Here (k : Nat) (c : CState) (X : List VarState) (F : List VarState × Book) : Prop := F.2.cs[k]? = some c ∧ F.1 = X

theorem here_set {b : Book} {vs : List VarState} {c' : CState} (hk : n ≠ k) (h : Here k c X (vs, b)) : Here k c X (vs, { b with cs := b.cs.set n c' }) := by
  refine ⟨?_, h.2⟩
  show (b.cs.set n c')[k]? = some c
  rw [List.getElem?_set_ne hk]
  exact h.1

theorem keepHere_setCS {f : CState → CState} {g : CState → SM γ} (hk : n ≠ k) (hg : ∀ c', Keep (Here k c X) (g c')) :
    Keep (Here k c X) (getCS n >>= fun c' => setCS n (f c') >>= fun _ => g c') := by
  refine ⟨fun W a W' hx h => ?_⟩
  obtain ⟨c', W1, h1, h2⟩ := SM.bind_ok hx
  obtain ⟨⟨hc, -⟩, rfl⟩ := getCS_iff.mp h1
  obtain ⟨_, W2, h3, h4⟩ := SM.bind_ok h2
  injection h3 with h3
  obtain ⟨-, rfl⟩ := Prod.mk.inj h3
  exact (hg c').keep _ _ _ h4 (here_set (b := W1.book) (vs := (frame W1).1) hk h)

theorem keepHere_markInactiveS (hk : n ≠ k) : Keep (Here k c X) (markInactiveS n) := by
  unfold markInactiveS
  refine Keep.bind (Keep.fr Fr.curLevel) (fun l => ⟨fun W u W' h hp => ?_⟩)
  rw [modify_iff] at h
  subst h
  refine ⟨?_, hp.2⟩
  show (W.book.markInactive l.level n).cs[k]? = some c
  have hp1 : W.book.cs[k]? = some c := hp.1
  unfold Book.markInactive
  split
  · exact hp1
  · split_ifs
    · show (W.book.cs.set n _)[k]? = some c
      rw [List.getElem?_set_ne hk]
      exact hp1
    · exact hp1
macro_rules | `(tactic| keep_step) => `(tactic| with_reducible exact keepHere_markInactiveS (by assumption))

theorem keepHere_sumPropagate {ck t : Bool} {l r : Int} {es : List (Int × Nat)} (hk : n ≠ k) : Keep (Here k c X) (sumPropagate cc n ck t l r es) := by
  unfold sumPropagate; keep_auto
macro_rules | `(tactic| keep_step) => `(tactic| with_reducible exact keepHere_sumPropagate (by assumption))

theorem keepHere_nonlinearPropagate {ca cb r : Int} {x y z : Nat} (hk : n ≠ k) : Keep (Here k c X) (nonlinearPropagate cc n ca x y cb z r) := by
  unfold nonlinearPropagate; keep_auto

theorem keepHere_distinctPropagate {l : Int} {es : List (List (Int × Nat) × Int)} (hk : n ≠ k) : Keep (Here k c X) (distinctPropagate cc n l es) := by
  unfold distinctPropagate
  refine Keep.bind (Keep.fr Fr.getCS) (fun c1 => ?_)
  refine Keep.bind (Keep.fr fr_distinctUpdate) (fun c2 => ?_)
  refine Keep.bind ⟨fun W u W' h hp => ?_⟩ (fun _ => ?_)
  · injection h with h
    obtain ⟨-, rfl⟩ := Prod.mk.inj h
    exact here_set (b := W.book) (vs := (frame W).1) hk hp
  · have hfin : Keep (Here k c X) (getCS n >>= fun c => setCS n c.clearTodo >>= fun _ => (Pure.pure true : SM Bool)) :=
      keepHere_setCS (f := fun c => c.clearTodo) hk (fun _ => Keep.fr Fr.pure)
    refine Keep.bind (Keep.fr fr_distinctTodo) (fun b => ?_)
    split
    · exact Keep.fr Fr.pure
    · refine Keep.bind (Keep.fr fr_distinctTodo) (fun b => ?_)
      split
      · exact Keep.fr Fr.pure
      · exact hfin

theorem keepHere_disjointPropagate {l : Int} (hk : n ≠ k) : Keep (Here k c X) (disjointPropagate cc n l) := by
  unfold disjointPropagate
  refine Keep.bind (Keep.fr Fr.getCS) (fun c => ?_)
  refine Keep.bind (Keep.fr fr_disjointLoad) (fun is => ?_)
  refine Keep.bind (Keep.fr fr_disjointRun) (fun p => ?_)
  refine keepHere_setCS (f := fun c => { c with intervals := p.2, forceUpdate := false }) hk (fun c' => ?_)
  split
  · exact Keep.fr Fr.pure
  · refine Keep.bind (Keep.fr fr_disjointRun) (fun q => ?_)
    exact keepHere_setCS (f := fun c => { c with intervals := q.2 }) hk (fun _ => Keep.fr Fr.pure)

theorem keepHere_propagateCS {ck : Bool} (hk : n ≠ k) : Keep (Here k c X) (propagateCS cc ck n) := by
  unfold propagateCS
  refine Keep.bind (Keep.fr Fr.getCS) (fun c => ?_)
  split
  · exact keepHere_sumPropagate hk
  · keep_auto
  · exact keepHere_distinctPropagate hk
  · exact keepHere_nonlinearPropagate hk
  · exact keepHere_disjointPropagate hk

theorem keepHere_checkOne {ck : Bool} (hk : n ≠ k) : Keep (Here k c X) (checkOne cc ck n) := by
  unfold checkOne
  refine keepHere_setCS (f := fun c => { c with todo := false }) hk (fun c => ?_)
  refine Keep.bind (Keep.fr Fr.qFalse) (fun b => ?_)
  split
  · exact keepHere_propagateCS hk
  · exact Keep.bind (keepHere_markInactiveS hk) (fun _ => Keep.fr Fr.pure)

/-! ### The loop over the queue -/

section
variable {clit : Int} {es : List (List (Int × Nat) × Int)} {ei ej : List (Int × Nat) × Int} {i j : Nat} {ck : Bool}

/-- Two elements are fixed to the same value and one of them is queued. -/
structure Clash (c : CState) (clit : Int) (es : List (List (Int × Nat) × Int)) (i j : Nat) (ei ej : List (Int × Nat) × Int) (lo up : Nat → Int) : Prop where
  con : c.con = .distinct clit es
  counted : Counted c lo up
  left : es[i]? = some ei
  right : es[j]? = some ej
  ne : i ≠ j
  mark : i ∈ c.todoLower ∨ i ∈ c.todoUpper
  nonzero : ∀ e ∈ ej.1, e.1 ≠ 0
  fixL : ∀ e ∈ ei.1, lo e.2 = up e.2
  fixR : ∀ e ∈ ej.1, lo e.2 = up e.2
  eq : lowSum lo up ei.1 + ei.2 = lowSum lo up ej.1 + ej.2

theorem checkOne_detect (hv : EnvMono cc) (ht : TI W) (hc : W.book.cs[n]? = some c) (hk : Clash c clit es i j ei ej (loF (frame W)) (upF (frame W)))
    (hf : cc.isFalse W.log clit = false) (h : checkOne cc ck n W = .ok (true, W')) : Posted cc W W' clit := by
  unfold checkOne at h
  obtain ⟨c', W1, h1, h2⟩ := SM.bind_ok h
  obtain ⟨⟨hcs, hal⟩, rfl⟩ := getCS_iff.mp h1
  rw [hc] at hcs; injection hcs with hcs; subst hcs
  obtain ⟨_, W2, h3, h4⟩ := SM.bind_ok h2
  injection h3 with h3
  obtain ⟨-, e⟩ := Prod.mk.inj h3
  obtain ⟨f', W3, h5, h6⟩ := SM.bind_ok h4
  obtain ⟨rfl, rfl⟩ := qFalse_iff.mp h5
  have hl := (List.getElem?_eq_some_iff.mp hc).1
  have hcs2 : W3.book.cs[n]? = some { c with todo := false } := by
    rw [← e]
    show (W1.book.cs.set n _)[n]? = _
    rw [List.getElem?_set_self hl]
  have hv2 : (frame W3).1 = (frame W1).1 := by rw [← e]; rfl
  have hlog : W3.log = W1.log := by rw [← e]
  have ht3 : TI W3 := by rw [← e]; exact ht.other rfl rfl rfl
  have e3 : loF (frame W3) = loF (frame W1) := by unfold loF; rw [hv2]
  have e4 : upF (frame W3) = upF (frame W1) := by unfold upF; rw [hv2]
  have hlit : c.con.lit = clit := by rw [hk.con]; rfl
  rw [hlit, hlog, hf] at h6
  have h6 : propagateCS cc ck n W3 = .ok (true, W') := h6
  unfold propagateCS at h6
  obtain ⟨c', W4, h7, h8⟩ := SM.bind_ok h6
  obtain ⟨⟨hc4, -⟩, rfl⟩ := getCS_iff.mp h7
  rw [hcs2] at hc4; injection hc4 with hc4; subst hc4
  have hcon : ({ c with todo := false } : CState).con = .distinct clit es := hk.con
  rw [hcon] at h8
  have := distinctPropagate_detect hv ht3 hcs2 hcon
    (by rw [e3, e4]; exact Counted.same (c := c) (c' := { c with todo := false }) ⟨rfl, rfl, rfl, rfl, rfl, rfl, rfl, rfl, .refl _, id⟩ hk.counted) hk.left hk.right hk.ne hk.mark hk.nonzero
    (by rw [e3, e4]; exact hk.fixL) (by rw [e3, e4]; exact hk.fixR) (by rw [e3, e4]; exact hk.eq) h8
  obtain ⟨r, L, a1, a2, a3⟩ := this
  exact ⟨r, L, a1, hlog ▸ a2, a3⟩

theorem checkTodo_detect (hv : EnvMono cc) : ∀ {ns : List Nat} {W : World}, n ∈ ns → TI W → W.book.cs[n]? = some c →
    Clash c clit es i j ei ej (loF (frame W)) (upF (frame W)) → cc.isFalse W'.log clit = false → checkTodo cc ck ns W = .ok (true, W') → Posted cc W W' clit
  | [], W, hn, _, _, _, _, _ => by cases hn
  | m :: ns, W, hn, ht, hc, hk, hf, h => by
    unfold checkTodo at h
    obtain ⟨b, W1, h1, h2⟩ := SM.bind_ok h
    cases b with
    | false =>
      obtain ⟨_, W2, h3, h4⟩ := SM.bind_ok h2
      obtain ⟨e, -⟩ := pure_iff.mp h4
      cases e
    | true =>
      have h2 : checkTodo cc ck ns W1 = .ok (true, W') := h2
      have g1 : W.log <:+ W1.log := suffix_of (m := true) (ext_checkOne.ext _ _ _ h1)
      have g2 : W1.log <:+ W'.log := suffix_of (m := true) (ext_checkTodo.ext _ _ _ h2)
      have hf0 : cc.isFalse W.log clit = false := by
        cases hh : cc.isFalse W.log clit with
        | false => rfl
        | true => rw [mono_false hv (g1.trans g2) hh] at hf; cases hf
      by_cases hm : m = n
      · subst hm
        obtain ⟨r, L, a1, a2, a3⟩ := checkOne_detect hv ht hc hk hf0 h1
        exact ⟨r, L, a1.trans g2, a2, a3⟩
      · obtain ⟨hc1, hx⟩ := (keepHere_checkOne (k := n) (c := c) (X := (frame W).1) hm).keep _ _ _ h1 ⟨hc, rfl⟩
        have e3 : loF (frame W1) = loF (frame W) := by unfold loF; rw [hx]
        have e4 : upF (frame W1) = upF (frame W) := by unfold upF; rw [hx]
        have ht1 : TI W1 := (kw_checkOne ti_prim.toPrim0).kw _ _ _ h1 ht
        obtain ⟨r, L, a1, a2, a3⟩ := checkTodo_detect hv ((List.mem_cons.mp hn).resolve_left (fun e => hm e.symm)) ht1 hc1 (by rw [e3, e4]; exact hk) hf h2
        exact ⟨r, L, a1, g1.trans a2, a3⟩

end

/-! ### Changed bounds are delivered -/

section
variable {i level var : Nat} {d : Int} {K : Constr} {m : Bool} {b b' : Book}

/-- The state of a distinct constraint that is not inactive; if `m` is true, then element `i` and the constraint are queued. -/
def Rdy (K : Constr) (n i : Nat) (m : Bool) (b : Book) : Prop :=
  ∃ c, b.cs[n]? = some c ∧ c.con = K ∧ c.inactive = 0 ∧ MarkOK c ∧ (c.todo = true → n ∈ b.todo) ∧ (m = true → (i ∈ c.todoLower ∨ i ∈ c.todoUpper) ∧ n ∈ b.todo)

theorem markTodoElem_eff {c : CState} {s : Int} {idx : Nat} (h : MarkOK c) : MarkOK (c.markTodoElem s idx) ∧ (c.markTodoElem s idx).con = c.con ∧
    (c.markTodoElem s idx).inactive = c.inactive ∧ (c.markTodoElem s idx).todo = c.todo ∧
    (idx ∈ (c.markTodoElem s idx).todoLower ∨ idx ∈ (c.markTodoElem s idx).todoUpper) ∧
    (∀ i, i ∈ c.todoLower ∨ i ∈ c.todoUpper → i ∈ (c.markTodoElem s idx).todoLower ∨ i ∈ (c.markTodoElem s idx).todoUpper) := by
  unfold CState.markTodoElem
  split_ifs with h1 h2 h3
  · exact ⟨h, rfl, rfl, rfl, .inl (h.1 _ h2), fun _ h => h⟩
  · refine ⟨⟨fun j hj => ?_, h.2⟩, rfl, rfl, rfl, .inl (by simp), fun j hj => hj.imp (fun h => List.mem_append_left _ h) id⟩
    rcases getD_mark hj with hj | rfl
    · exact List.mem_append_left _ (h.1 j hj)
    · simp
  · exact ⟨h, rfl, rfl, rfl, .inr (h.2 _ h3), fun _ h => h⟩
  · refine ⟨⟨h.1, fun j hj => ?_⟩, rfl, rfl, rfl, .inr (by simp), fun j hj => hj.imp id (fun h => List.mem_append_left _ h)⟩
    rcases getD_mark hj with hj | rfl
    · exact List.mem_append_left _ (h.2 j hj)
    · simp

theorem markDirty_rest {c : CState} {idx : Nat} : (c.markDirty idx).con = c.con ∧ (c.markDirty idx).inactive = c.inactive ∧ (c.markDirty idx).todo = c.todo ∧
    (c.markDirty idx).todoLower = c.todoLower ∧ (c.markDirty idx).todoUpper = c.todoUpper := by
  unfold CState.markDirty
  split_ifs <;> exact ⟨rfl, rfl, rfl, rfl, rfl⟩

theorem Rdy.markTodo {k : Nat} (h : Rdy K n i m b) : Rdy K n i m (b.markTodo k) ∧ (k = n → n ∈ (b.markTodo k).todo) := by
  obtain ⟨c, h1, h2, h3, h4, h5, h6⟩ := h
  unfold Book.markTodo
  split
  · rename_i hn
    exact ⟨⟨c, h1, h2, h3, h4, h5, h6⟩, fun e => by subst e; rw [h1] at hn; cases hn⟩
  · rename_i c' hc'
    split_ifs with h7 h8
    · refine ⟨⟨c, h1, h2, h3, h4, h5, h6⟩, fun e => ?_⟩
      subst e
      rw [h1] at hc'; injection hc' with hc'; subst hc'
      unfold CState.markedInactive at h7
      rw [h3] at h7; simp at h7
    · refine ⟨⟨c, h1, h2, h3, h4, h5, h6⟩, fun e => ?_⟩
      subst e
      rw [h1] at hc'; injection hc' with hc'; subst hc'
      exact h5 h8
    · refine ⟨?_, fun e => by subst e; exact List.mem_append_right _ (List.mem_singleton.mpr rfl)⟩
      by_cases e : k = n
      · subst e
        rw [h1] at hc'; injection hc' with hc'; subst hc'
        exact ⟨{ c with todo := true }, List.getElem?_set_self (List.getElem?_eq_some_iff.mp h1).1, h2, h3, h4, fun _ => List.mem_append_right _ (List.mem_singleton.mpr rfl),
          fun hm => ⟨(h6 hm).1, List.mem_append_left _ (h6 hm).2⟩⟩
      · exact ⟨c, by show (b.cs.set k _)[n]? = _; rw [List.getElem?_set_ne e]; exact h1, h2, h3, h4, fun ht => List.mem_append_left _ (h5 ht),
          fun hm => ⟨(h6 hm).1, List.mem_append_left _ (h6 hm).2⟩⟩

theorem markTodo_rest {k : Nat} : (b.markTodo k).watches = b.watches ∧ (b.markTodo k).inLdiff = b.inLdiff := by
  unfold Book.markTodo
  split
  · exact ⟨rfl, rfl⟩
  · split_ifs <;> exact ⟨rfl, rfl⟩

theorem updateWatches_rdy {clit : Int} {es : List (List (Int × Nat) × Int)} (hK : K = .distinct clit es) : ∀ {ws : List (Int × Nat)} {m : Bool} {b : Book} {p : List (Int × Nat) × Book},
    Book.updateWatches level var d ws b = .ok p → Rdy K n i m b →
    Rdy K n i m p.2 ∧ p.2.watches = b.watches ∧ p.2.inLdiff = b.inLdiff ∧ ∀ s, (s, n) ∈ ws → (s, n) ∈ p.1 ∧ (s.natAbs - 1 = i → Rdy K n i true p.2)
  | [], m, b, p, h, hr => by
    injection h with h; subst h
    exact ⟨hr, rfl, rfl, fun s hs => by cases hs⟩
  | (s0, k) :: ws, m, b, p, h, hr => by
    unfold Book.updateWatches at h
    cases hc : b.cs[k]? with
    | none => rw [hc] at h; cases h
    | some c =>
      rw [hc] at h
      dsimp only at h
      split at h
      · rename_i hrem
        obtain ⟨a1, a2, a3, a4⟩ := updateWatches_rdy hK (b := { b with removed := b.removed ++ [(var, s0, k)] }) h hr
        refine ⟨a1, a2, a3, fun s hs => ?_⟩
        rcases List.mem_cons.mp hs with e | hs
        · exfalso
          obtain ⟨rfl, rfl⟩ := Prod.mk.inj e
          obtain ⟨c', h1, h2, h3, -⟩ := hr
          rw [hc] at h1; injection h1 with h1; subst h1
          unfold CState.removableAt CState.markedInactive at hrem
          rw [h3] at hrem; simp at hrem
        · exact a4 s hs
      · cases hu : c.update s0 d with
        | error e => rw [hu] at h; cases h
        | ok r =>
          rw [hu] at h
          simp only [bind, Except.bind] at h
          split at h
          · cases h
          · next q hx =>
            simp only [pure, Except.pure, Except.ok.injEq] at h
            subst h
            by_cases e : k = n
            · have e' : n = k := e.symm
              subst e'
              obtain ⟨c', h1, h2, h3, h4, h5, h6⟩ := hr
              rw [hc] at h1; injection h1 with h1; subst h1
              unfold CState.update at hu
              rw [h2, hK] at hu
              injection hu with hu
              subst hu
              dsimp only at hx
              rw [if_pos rfl] at hx
              obtain ⟨d1, d2, d3, d4, d5⟩ := markDirty_rest (c := c) (idx := s0.natAbs - 1)
              obtain ⟨f1, f2, f3, f4, f5, f6⟩ := markTodoElem_eff (s := s0) (idx := s0.natAbs - 1) (markDirty_marks (idx := s0.natAbs - 1) h4)
              have hl := (List.getElem?_eq_some_iff.mp hc).1
              have r1 : Rdy K n i m { b with cs := b.cs.set n ((c.markDirty (s0.natAbs - 1)).markTodoElem s0 (s0.natAbs - 1)) } :=
                ⟨_, List.getElem?_set_self hl, f2.trans (d1.trans h2), f3.trans (d2.trans h3), f1, fun ht => h5 (by rw [f4, d3] at ht; exact ht),
                  fun hm => ⟨f6 i (by rw [d4, d5]; exact (h6 hm).1), (h6 hm).2⟩⟩
              obtain ⟨r2, r3⟩ := r1.markTodo (k := n)
              obtain ⟨e1, e2⟩ := markTodo_rest (b := { b with cs := b.cs.set n ((c.markDirty (s0.natAbs - 1)).markTodoElem s0 (s0.natAbs - 1)) }) (k := n)
              obtain ⟨a1, a2, a3, a4⟩ := updateWatches_rdy hK hx r2
              refine ⟨a1, a2.trans e1, a3.trans e2, fun s hs => ?_⟩
              rcases List.mem_cons.mp hs with e | hs
              · obtain ⟨rfl, -⟩ := Prod.mk.inj e
                refine ⟨List.mem_cons_self .., fun hi => ?_⟩
                have f5 : i ∈ ((c.markDirty (s.natAbs - 1)).markTodoElem s (s.natAbs - 1)).todoLower ∨ i ∈ ((c.markDirty (s.natAbs - 1)).markTodoElem s (s.natAbs - 1)).todoUpper := by
                  rw [← hi]; exact f5
                have r4 : Rdy K n i true ({ b with cs := b.cs.set n ((c.markDirty (s.natAbs - 1)).markTodoElem s (s.natAbs - 1)) }.markTodo n) := by
                  have r5 : Rdy K n i false { b with cs := b.cs.set n ((c.markDirty (s.natAbs - 1)).markTodoElem s (s.natAbs - 1)) } :=
                    ⟨_, List.getElem?_set_self hl, f2.trans (d1.trans h2), f3.trans (d2.trans h3), f1, fun ht => h5 (by rw [f4, d3] at ht; exact ht), fun hm => by cases hm⟩
                  have hin := (r5.markTodo (k := n)).2 rfl
                  have hg : ∃ c2, ({ b with cs := b.cs.set n ((c.markDirty (s.natAbs - 1)).markTodoElem s (s.natAbs - 1)) }.markTodo n).cs[n]? = some c2 ∧
                      (i ∈ c2.todoLower ∨ i ∈ c2.todoUpper) := by
                    have hg0 : ({ b with cs := b.cs.set n ((c.markDirty (s.natAbs - 1)).markTodoElem s (s.natAbs - 1)) } : Book).cs[n]? =
                        some ((c.markDirty (s.natAbs - 1)).markTodoElem s (s.natAbs - 1)) := List.getElem?_set_self hl
                    unfold Book.markTodo
                    rw [hg0]
                    dsimp only
                    split_ifs
                    · exact ⟨_, hg0, f5⟩
                    · exact ⟨_, hg0, f5⟩
                    · exact ⟨_, List.getElem?_set_self (by rw [List.length_set]; exact hl), f5⟩
                  obtain ⟨c3, g1, g2, g3, g4, g5, -⟩ := (r5.markTodo (k := n)).1
                  obtain ⟨c2, k1, k2⟩ := hg
                  rw [g1] at k1; injection k1 with k1; subst k1
                  exact ⟨c3, g1, g2, g3, g4, g5, fun _ => ⟨k2, hin⟩⟩
                exact (updateWatches_rdy hK hx r4).1
              · exact ⟨List.mem_cons_of_mem _ (a4 s hs).1, (a4 s hs).2⟩
            · have r1 : Rdy K n i m { b with cs := b.cs.set k r.2 } := by
                obtain ⟨c', h1, h2, h3, h4, h5, h6⟩ := hr
                exact ⟨c', by show (b.cs.set k _)[n]? = _; rw [List.getElem?_set_ne e]; exact h1, h2, h3, h4, h5, h6⟩
              have fin : ∀ b1 : Book, Rdy K n i m b1 → b1.watches = b.watches → b1.inLdiff = b.inLdiff → Book.updateWatches level var d ws b1 = .ok q →
                  Rdy K n i m q.2 ∧ q.2.watches = b.watches ∧ q.2.inLdiff = b.inLdiff ∧ ∀ s, (s, n) ∈ (s0, k) :: ws → (s, n) ∈ (s0, k) :: q.1 ∧ (s.natAbs - 1 = i → Rdy K n i true q.2) := by
                intro b1 hb1 w1 w2 hx
                obtain ⟨a1, a2, a3, a4⟩ := updateWatches_rdy hK hx hb1
                refine ⟨a1, a2.trans w1, a3.trans w2, fun s hs => ?_⟩
                rcases List.mem_cons.mp hs with e' | hs
                · exact absurd (Prod.mk.inj e').2.symm e
                · exact ⟨List.mem_cons_of_mem _ (a4 s hs).1, (a4 s hs).2⟩
              split at hx
              · exact fin _ (r1.markTodo (k := k)).1 markTodo_rest.1 markTodo_rest.2 hx
              · exact fin _ r1 rfl rfl hx

/-- The constraint has the watch. -/
def HasW (n : Nat) (s : Int) (v : Nat) (b : Book) : Prop := (s, n) ∈ b.watches.getD v []

theorem updateConstraints_rdy {clit s : Int} {es : List (List (Int × Nat) × Int)} {v : Nat} (hK : K = .distinct clit es) (h : Book.updateConstraints level var d b = .ok b')
    (hr : Rdy K n i m b) (hw : HasW n s v b) : Rdy K n i m b' ∧ HasW n s v b' ∧ b'.inLdiff = b.inLdiff ∧ (var = v → s.natAbs - 1 = i → Rdy K n i true b') := by
  unfold Book.updateConstraints at h
  cases hws : b.watches[var]? with
  | none => rw [hws] at h; cases h
  | some ws =>
    rw [hws] at h
    dsimp only at h
    cases hu : Book.updateWatches level var d ws b with
    | error e => rw [hu] at h; cases h
    | ok p =>
      rw [hu] at h
      simp only [bind, Except.bind, pure, Except.pure, Except.ok.injEq] at h
      subst h
      obtain ⟨a1, a2, a3, a4⟩ := updateWatches_rdy hK hu hr
      unfold HasW at hw ⊢
      by_cases e : var = v
      · subst e
        rw [List.getD_eq_getElem?_getD, hws] at hw
        refine ⟨a1, ?_, a3, fun _ => (a4 s hw).2⟩
        show (s, n) ∈ (p.2.watches.set var p.1).getD var []
        rw [List.getD_eq_getElem?_getD, List.getElem?_set_self (by rw [a2]; exact (List.getElem?_eq_some_iff.mp hws).1)]
        exact (a4 s hw).1
      · refine ⟨a1, ?_, a3, fun h => absurd h e⟩
        show (s, n) ∈ (p.2.watches.set var p.1).getD v []
        rw [List.getD_eq_getElem?_getD, List.getElem?_set_ne e, a2, ← List.getD_eq_getElem?_getD]
        exact hw

theorem updateUppers_rdy {clit s : Int} {es : List (List (Int × Nat) × Int)} {v : Nat} (hK : K = .distinct clit es) : ∀ {vs : List Nat} {m : Bool} {b b' : Book},
    Book.updateUppers level vs b = .ok b' → Rdy K n i m b → HasW n s v b →
    Rdy K n i m b' ∧ HasW n s v b' ∧ b'.inLdiff = b.inLdiff ∧ (v ∈ vs → s.natAbs - 1 = i → Rdy K n i true b')
  | [], m, b, b', h, hr, hw => by
    injection h with h; subst h
    exact ⟨hr, hw, rfl, fun h => by cases h⟩
  | u :: vs, m, b, b', h, hr, hw => by
    unfold Book.updateUppers at h
    cases hb : Book.updateConstraints level u (b.udiff.getD u 0) b with
    | error e => rw [hb] at h; cases h
    | ok b1 =>
      rw [hb] at h
      obtain ⟨a1, a2, a3, a4⟩ := updateConstraints_rdy (v := v) hK hb hr hw
      obtain ⟨c1, c2, c3, c4⟩ := updateUppers_rdy (b := { b1 with udiff := b1.udiff.set u 0 }) hK h a1 a2
      refine ⟨c1, c2, c3.trans a3, fun hv hi => ?_⟩
      rcases List.mem_cons.mp hv with e | hv
      · exact (updateUppers_rdy (b := { b1 with udiff := b1.udiff.set u 0 }) hK h (a4 e.symm hi) a2).1
      · exact c4 hv hi

theorem updateLowers_rdy {clit s : Int} {es : List (List (Int × Nat) × Int)} {v : Nat} (hK : K = .distinct clit es) : ∀ {vs : List Nat} {m : Bool} {b b' : Book},
    Book.updateLowers level vs b = .ok b' → Rdy K n i m b → HasW n s v b →
    Rdy K n i m b' ∧ (v ∈ vs → s.natAbs - 1 = i → Rdy K n i true b')
  | [], m, b, b', h, hr, hw => by
    injection h with h; subst h
    exact ⟨hr, fun h => by cases h⟩
  | u :: vs, m, b, b', h, hr, hw => by
    unfold Book.updateLowers at h
    cases hb : Book.updateConstraints level u (b.ldiff.getD u 0) b with
    | error e => rw [hb] at h; cases h
    | ok b1 =>
      rw [hb] at h
      obtain ⟨a1, a2, a3, a4⟩ := updateConstraints_rdy (v := v) hK hb hr hw
      obtain ⟨c1, c4⟩ := updateLowers_rdy (b := { b1 with ldiff := b1.ldiff.set u 0 }) hK h a1 a2
      refine ⟨c1, fun hv hi => ?_⟩
      rcases List.mem_cons.mp hv with e | hv
      · exact (updateLowers_rdy (b := { b1 with ldiff := b1.ldiff.set u 0 }) hK h (a4 e.symm hi) a2).1
      · exact c4 hv hi

theorem deliver_rdy {clit s : Int} {es : List (List (Int × Nat) × Int)} {v : Nat} {u : Unit} (hK : K = .distinct clit es) (h : deliver level W = .ok (u, W'))
    (hr : Rdy K n i m W.book) (hw : HasW n s v W.book) (hi : s.natAbs - 1 = i) (hv : v ∈ W.book.inUdiff ∨ v ∈ W.book.inLdiff) : Rdy K n i true W'.book := by
  obtain ⟨b1, b2, h1, h2, rfl⟩ := deliver_parts h
  obtain ⟨a1, a2, a3, a4⟩ := updateUppers_rdy (v := v) hK h1 hr hw
  rcases hv with hv | hv
  · exact (updateLowers_rdy (v := v) hK h2 (a4 hv hi) a2).1
  · exact (updateLowers_rdy (v := v) hK h2 a1 a2).2 (by rw [a3]; exact hv) hi

theorem watch_of {co : Int} {v : Nat} {c : CState} {clit : Int} {es : List (List (Int × Nat) × Int)} {ei : List (Int × Nat) × Int} (hb : BI (frame W)) (hc : W.book.cs[n]? = some c)
    (ha : c.alive = true) (hk : c.con = .distinct clit es) (hn : c.inactive = 0) (hi : es[i]? = some ei) (hm : (co, v) ∈ ei.1) : ∃ s, HasW n s v W.book ∧ s.natAbs - 1 = i := by
  obtain ⟨s, h1, h2⟩ := distinctWatches_mem (k := 0) hi hm
  have hp := ((hb.track n c hc ha).pres (fun _ _ => by unfold CState.removableAt CState.markedInactive; rw [hn]; simp) v).1
  have : s ∈ own c v := by
    unfold own
    rw [hk]
    exact List.mem_map.mpr ⟨(s, v), List.mem_filter.mpr ⟨h1, by simp⟩, rfl⟩
  obtain ⟨w, h3, h4⟩ := List.mem_map.mp (hp.mem_iff.mpr this)
  obtain ⟨h5, h6⟩ := List.mem_filter.mp h3
  have h6 : w.2 = n := by simpa using h6
  refine ⟨s, ?_, by omega⟩
  have e : w = (s, n) := Prod.ext h4 h6
  rw [e] at h5
  exact h5

/-- One round of `check` after facts have been integrated. -/
def checkRound (cc : CC) (ck : Bool) (level fuel : Nat) : SM Bool :=
  deliver level >>= fun _ => get >>= fun W => checkTodo cc ck W.book.todo >>= fun ret => modify (fun W => { W with book.todo := [] }) >>= fun _ =>
    get >>= fun W => if (!ret || W.factmap.isEmpty) = true then Pure.pure ret else checkLoop cc ck level fuel

theorem checkRound_detect {clit co : Int} {es : List (List (Int × Nat) × Int)} {ei ej : List (Int × Nat) × Int} {j v fuel : Nat} {ck : Bool} {c : CState} {l : Lvl} {ls : List Lvl}
    {A : (Nat → Nat → Int) × (Nat → Nat → Int) × Nat} (hv : EnvMono cc) (ht : TI W) (hb : BI (frame W)) (hat : At (l :: ls) A (frame W)) (hc : W.book.cs[n]? = some c) (ha : c.alive = true)
    (hk : c.con = .distinct clit es) (hn : c.inactive = 0) (hq : c.todo = true → n ∈ W.book.todo) (hi : es[i]? = some ei) (hj : es[j]? = some ej) (hij : i ≠ j)
    (hm : (co, v) ∈ ei.1) (hd : v ∈ W.book.inUdiff ∨ v ∈ W.book.inLdiff) (h0 : ∀ e ∈ ej.1, e.1 ≠ 0)
    (hfi : ∀ e ∈ ei.1, loF (frame W) e.2 = upF (frame W) e.2) (hfj : ∀ e ∈ ej.1, loF (frame W) e.2 = upF (frame W) e.2)
    (heq : lowSum (loF (frame W)) (upF (frame W)) ei.1 + ei.2 = lowSum (loF (frame W)) (upF (frame W)) ej.1 + ej.2)
    (h6 : checkRound cc ck l.level fuel W = .ok (true, W')) : cc.isFalse W'.log clit = true ∨ Posted cc W W' clit := by
  unfold checkRound at h6
  obtain ⟨u, W5, h7, h8⟩ := SM.bind_ok h6
  obtain ⟨W5', W6, h9, h10⟩ := SM.bind_ok h8
  obtain ⟨rfl, rfl⟩ := get_iff.mp h9
  obtain ⟨ret, W7, h11, h12⟩ := SM.bind_ok h10
  obtain ⟨u', W8, h13, h14⟩ := SM.bind_ok h12
  rw [modify_iff] at h13
  subst h13
  obtain ⟨W9, W10, h15, h16⟩ := SM.bind_ok h14
  obtain ⟨rfl, rfl⟩ := get_iff.mp h15
  have hret : ret = true ∧ W7.log <:+ W'.log := by
    cases ret with
    | false =>
      obtain ⟨e, -⟩ := pure_iff.mp (show (Pure.pure false : SM Bool) _ = .ok (true, W') from h16)
      cases e
    | true =>
      refine ⟨rfl, ?_⟩
      split at h16
      · obtain ⟨-, rfl⟩ := pure_iff.mp h16
        exact List.suffix_refl _
      · have g : ({ W7 with book.todo := [] } : World).log <:+ W'.log := suffix_of (m := false) (ext_checkLoop.ext _ _ _ h16)
        exact g
  obtain ⟨rfl, hsuf⟩ := hret
  obtain ⟨s, hw, hs⟩ := watch_of hb hc ha hk hn hi hm
  have hmk : MarkOK c := by
    obtain ⟨aL, aU, hct, -⟩ := hb.track n c hc ha
    unfold Counted Mid at hct
    rw [hk] at hct
    exact hct.1.todo
  obtain ⟨c6, g1, g2, g3, g4, g5, g6⟩ := deliver_rdy (m := false) (K := .distinct clit es) rfl h7 ⟨c, hc, hk, hn, hmk, hq, fun h => by cases h⟩ hw hs hd
  obtain ⟨g6, g7⟩ := g6 rfl
  obtain ⟨a2, q2⟩ := deliver_eff h7 hat
  obtain ⟨b1, b2, p1, p2, p3⟩ := deliver_parts h7
  have hx : (frame W6).1 = (frame W).1 := by rw [p3]; rfl
  have hlog : W6.log = W.log := by rw [p3]
  have ha6 : c6.alive = true := by
    have hs := keepT_deliver (K := W.book.cs.map acon) (I := W.book.inactive) (M := (W.book.minimizeBound, W.book.minimizeLevel)).keep _ _ _ h7
      ⟨rfl, List.prefix_refl _, rfl⟩
    obtain ⟨c0, k1, k2, -⟩ := acon_get hs.1 g1
    rw [hc] at k1; injection k1 with k1; subst k1
    exact k2.trans ha
  have ht6 : TI W6 := by rw [p3]; exact ht.other rfl rfl rfl
  have e3 : loF (frame W6) = loF (frame W) := by unfold loF; rw [hx]
  have e4 : upF (frame W6) = upF (frame W) := by unfold upF; rw [hx]
  have hct : Counted c6 (loF (frame W6)) (upF (frame W6)) :=
    Chk.counted (L := l :: ls) (T := W6.book.todo) (F := frame W6) ⟨a2, q2, rfl⟩ g7 g1 ha6
  by_cases hfl : cc.isFalse W7.log clit = true
  · exact .inl (mono_false hv hsuf hfl)
  · obtain ⟨r, L, z1, z2, z3⟩ := checkTodo_detect hv g7 ht6 g1 ⟨g2, hct, hi, hj, hij, g6, h0, by rw [e3, e4]; exact hfi, by rw [e3, e4]; exact hfj, by rw [e3, e4]; exact heq⟩
      (by simpa using hfl) h11
    exact .inr ⟨r, L, z1.trans hsuf, hlog ▸ z2, z3⟩

/-! ### Facts are integrated -/

/-- Constraint states and queue are the same, and the upper bound of the variable has changed and `q` holds, the lower bound has changed and `r` holds, or `p` holds. -/
def Pend (p q r : Prop) (v : Nat) (C : List CState) (T : List Nat) (F : List VarState × Book) : Prop := F.2.cs = C ∧ F.2.todo = T ∧ (p ∨ q ∧ v ∈ F.2.inUdiff ∨ r ∧ v ∈ F.2.inLdiff)

section
variable {p q r : Prop} {w : Nat} {C : List CState} {T : List Nat}

theorem keepP_updateUpperLit {l v : Nat} {lit value sl : Int} : Keep (Pend p q r w C T) (updateUpperLit cc l v lit value sl) := by
  refine ⟨fun W a W' h ha => ?_⟩
  unfold updateUpperLit at h
  obtain ⟨y, W1, h1, h3⟩ := SM.bind_ok h
  obtain ⟨hv, rfl⟩ := getVar_iff.mp h1
  clear h
  rename' h3 => h
  split_ifs at h with hc
  · have : Keep (Pend p q r w C T) (do
        let l ← getLiteral cc v (y.lower - 1)
        whenS (← addClause cc [l, -lit]) (discard (ccPropagate cc))
        return false) := by keep_auto
    exact this.keep _ _ _ h ha
  · obtain ⟨_, W2, h2, h3⟩ := SM.bind_ok h
    clear h
    rename' h3 => h
    have h2 : Pend p q r w C T (frame W2) := by
      unfold whenS at h2
      split_ifs at h2 with hu
      · obtain ⟨y', hv', e⟩ := updateUpper_frame h2
        rw [e]
        refine ⟨ha.1, ha.2.1, ha.2.2.imp id (Or.imp (fun ⟨hp, hm⟩ => ⟨hp, ?_⟩) id)⟩
        show w ∈ (if W1.book.udiff.getD v 0 = 0 then W1.book.inUdiff ++ [v] else W1.book.inUdiff)
        split_ifs
        · exact List.mem_append_left _ hm
        · exact hm
      · obtain ⟨-, rfl⟩ := pure_iff.mp h2; exact ha
    refine Keep.keep (P := Pend p q r w C T) ?_ _ _ _ h h2
    keep_auto

theorem keepP_updateLowerLit {l v : Nat} {lit value sl : Int} : Keep (Pend p q r w C T) (updateLowerLit cc l v lit value sl) := by
  refine ⟨fun W a W' h ha => ?_⟩
  unfold updateLowerLit at h
  obtain ⟨y, W1, h1, h3⟩ := SM.bind_ok h
  obtain ⟨hv, rfl⟩ := getVar_iff.mp h1
  clear h
  rename' h3 => h
  split_ifs at h with hc
  · refine Keep.keep (P := Pend p q r w C T) ?_ _ _ _ h ha
    keep_auto
  · obtain ⟨_, W2, h2, h3⟩ := SM.bind_ok h
    clear h
    rename' h3 => h
    have h2 : Pend p q r w C T (frame W2) := by
      unfold whenS at h2
      split_ifs at h2 with hu
      · obtain ⟨y', hv', e⟩ := updateLower_frame h2
        rw [e]
        refine ⟨ha.1, ha.2.1, ha.2.2.imp id (Or.imp id (fun ⟨hp, hm⟩ => ⟨hp, ?_⟩))⟩
        show w ∈ (if W1.book.ldiff.getD v 0 = 0 then W1.book.inLdiff ++ [v] else W1.book.inLdiff)
        split_ifs
        · exact List.mem_append_left _ hm
        · exact hm
      · obtain ⟨-, rfl⟩ := pure_iff.mp h2; exact ha
    refine Keep.keep (P := Pend p q r w C T) ?_ _ _ _ h h2
    keep_auto
macro_rules | `(tactic| keep_step) => `(tactic| with_reducible exact keepP_updateUpperLit)
macro_rules | `(tactic| keep_step) => `(tactic| with_reducible exact keepP_updateLowerLit)

theorem keepP_propagateFacts {l : Nat} : ∀ {fs : List (Int × Nat × Int × Int)}, Keep (Pend p q r w C T) (propagateFacts cc l fs)
  | [] => by unfold propagateFacts; keep_auto
  | (a, b, c, d) :: fs => by
    have ih := keepP_propagateFacts (l := l) (fs := fs)
    unfold propagateFacts; keep_auto
macro_rules | `(tactic| keep_step) => `(tactic| with_reducible exact keepP_propagateFacts)

theorem keepP_updateDomain {lit : Int} : Keep (Pend p q r w C T) (updateDomain cc lit) := by unfold updateDomain; keep_auto
macro_rules | `(tactic| keep_step) => `(tactic| with_reducible exact keepP_updateDomain)
theorem keepP_integrateFacts : Keep (Pend p q r w C T) (integrateFacts cc) := by unfold integrateFacts; keep_auto

/-- The bounds are not less tight than the given ones. -/
theorem tight_stab {F0 : List VarState × Book} : Stab (fun F => Tight F0 F) := ⟨fun F F' _ ht h => h.trans ht⟩

theorem bounds_le (h : AllNested W) (v : Nat) : loF (frame W) v ≤ upF (frame W) v := by
  unfold loF upF
  cases hv : (frame W).1[v]? with
  | none => simp
  | some y => exact (h y (List.mem_of_getElem? hv)).le

end

/-- If the bounds of a variable of an element changed, the element is fixed and another element is fixed to the same value, then `check` adds a clause. -/
theorem solverCheck_detect {clit co : Int} {es : List (List (Int × Nat) × Int)} {ei ej : List (Int × Nat) × Int} {j v fuel : Nat} {ck : Bool} {c : CState} {l : Lvl} {ls : List Lvl}
    (hv : EnvMono cc) (ht : TI W) (hnest : AllNested W) (hb : BI (frame W)) (hl : W.book.levels = l :: ls) (hlv : cc.level = l.level) (hc : W.book.cs[n]? = some c) (ha : c.alive = true)
    (hk : c.con = .distinct clit es) (hn : c.inactive = 0) (hq : c.todo = true → n ∈ W.book.todo) (hi : es[i]? = some ei) (hj : es[j]? = some ej) (hij : i ≠ j)
    (hm : (co, v) ∈ ei.1) (hd : v ∈ W.book.inUdiff ∨ v ∈ W.book.inLdiff) (h0 : ∀ e ∈ ej.1, e.1 ≠ 0)
    (hfi : ∀ e ∈ ei.1, loF (frame W) e.2 = upF (frame W) e.2) (hfj : ∀ e ∈ ej.1, loF (frame W) e.2 = upF (frame W) e.2)
    (heq : lowSum (loF (frame W)) (upF (frame W)) ei.1 + ei.2 = lowSum (loF (frame W)) (upF (frame W)) ej.1 + ej.2)
    (h : solverCheck cc ck fuel W = .ok (true, W')) : cc.isFalse W'.log clit = true ∨ Posted cc W W' clit := by
  have hat : At (l :: ls) (alF (frame W), auF (frame W), (frame W).1.length) (frame W) := ⟨hb, hl, fun _ _ _ _ _ => ⟨rfl, rfl⟩, rfl⟩
  unfold solverCheck at h
  obtain ⟨l', W1, h1, h2⟩ := SM.bind_ok h
  obtain ⟨rfl, ls', e⟩ := curLevel_at h1 hat
  obtain ⟨rfl, rfl⟩ := List.cons.inj e
  obtain ⟨W2, W3, h3, h4⟩ := SM.bind_ok h2
  obtain ⟨rfl, rfl⟩ := get_iff.mp h3
  rw [if_neg (by rintro ⟨h, -⟩; exact h hlv)] at h4
  cases fuel with
  | zero => cases h4
  | succ fuel =>
    unfold checkLoop at h4
    obtain ⟨b, W4, h5, h6⟩ := SM.bind_ok h4
    cases b with
    | false =>
      obtain ⟨e, -⟩ := pure_iff.mp (show (Pure.pure false : SM Bool) W4 = .ok (true, W') from h6)
      cases e
    | true =>
      have h6 : checkRound cc ck l.level fuel W4 = .ok (true, W') := h6
      have a4 := keep_integrateFacts.keep _ _ _ h5 hat
      have t4 : TI W4 := (kw_integrateFacts ti_prim.toPrimN.toPrimD).kw _ _ _ h5 ht
      have n4 : AllNested W4 := (kw_integrateFacts nested_prim.toPrimU.toPrimD).kw _ _ _ h5 hnest
      have b4 : Tight (frame W3) (frame W4) := (keepS_integrateFacts tight_stab).keep _ _ _ h5 (Tight.refl _)
      obtain ⟨p1, p2, p3⟩ := (keepP_integrateFacts (p := False) (q := True) (r := True) (w := v) (C := W3.book.cs) (T := W3.book.todo)).keep _ _ _ h5 ⟨rfl, rfl, .inr (hd.imp (⟨trivial, ·⟩) (⟨trivial, ·⟩))⟩
      have p3 := (p3.resolve_left id).imp (·.2) (·.2)
      have g4 : W3.log <:+ W4.log := suffix_of (m := false) (ext_integrateFacts.ext _ _ _ h5)
      have key : ∀ u, loF (frame W3) u = upF (frame W3) u → loF (frame W4) u = loF (frame W3) u ∧ upF (frame W4) u = upF (frame W3) u := by
        intro u hu
        have := bounds_le n4 u
        have := b4.2 u
        omega
      have f1 : ∀ es' : List (Int × Nat), (∀ e ∈ es', loF (frame W3) e.2 = upF (frame W3) e.2) →
          (∀ e ∈ es', loF (frame W4) e.2 = upF (frame W4) e.2) ∧ lowSum (loF (frame W4)) (upF (frame W4)) es' = lowSum (loF (frame W3)) (upF (frame W3)) es' := by
        intro es' hx
        refine ⟨fun e he => by rw [(key _ (hx e he)).1, (key _ (hx e he)).2]; exact hx e he, ?_⟩
        exact lowSum_congr (fun e he => key _ (hx e he))
      have p1 : W4.book.cs = W3.book.cs := p1
      have p2 : W4.book.todo = W3.book.todo := p2
      rcases checkRound_detect hv t4 a4.bi a4 (by rw [p1]; exact hc) ha hk hn (by rw [p2]; exact hq) hi hj hij hm p3 h0 (f1 _ hfi).1 (f1 _ hfj).1
        (by rw [(f1 _ hfi).2, (f1 _ hfj).2]; exact heq) h6 with hh | ⟨r, L, z1, z2, z3⟩
      · exact .inl hh
      · exact .inr ⟨r, L, z1, g4.trans z2, z3⟩

end

end Clingcon
