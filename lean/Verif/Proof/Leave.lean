import Verif.Proof.Undo

/-! Undoing levels, continued. -/
set_option linter.unusedSimpArgs false
namespace Clingcon
open Spec VarState

variable {vs : List VarState} {b b' : Book} {v : Nat} {y : VarState} {W W' : World}

theorem foldl_modify {f : CState → CState} (hf : ∀ c, f (f c) = f c) : ∀ {ns : List Nat} {cs : List CState} {m : Nat},
    (ns.foldl (fun cs n => cs.modify n f) cs)[m]? = cs[m]?.map (fun c => if m ∈ ns then f c else c)
  | [], cs, m => by cases h : cs[m]? <;> simp [h]
  | n :: ns, cs, m => by
    rw [List.foldl_cons, foldl_modify hf, List.getElem?_modify]
    cases h : cs[m]? with
    | none => simp [h]
    | some c =>
      by_cases hn : n = m
      · subst hn
        by_cases hm : n ∈ ns <;> simp [hm, hf]
      · have hn' : ¬ m = n := fun e => hn e.symm
        by_cases hm : m ∈ ns <;> simp [hm, hn, hn']

theorem foldl_modify_len {f : CState → CState} : ∀ {ns : List Nat} {cs : List CState}, (ns.foldl (fun cs n => cs.modify n f) cs).length = cs.length
  | [], _ => rfl
  | n :: ns, cs => by rw [List.foldl_cons, foldl_modify_len]; simp

theorem rewatch_len : ∀ {rs : List (Nat × Int × Nat)} {ws : List (List (Int × Nat))}, (Book.rewatch ws rs).length = ws.length
  | [], _ => rfl
  | r :: rs, ws => by
    show (Book.rewatch (ws.modify r.1 (fun l => l ++ [r.2])) rs).length = _
    rw [rewatch_len]; simp

theorem rewatch_get : ∀ {rs : List (Nat × Int × Nat)} {ws : List (List (Int × Nat))}, (∀ r ∈ rs, r.1 < ws.length) → ∀ v,
    (Book.rewatch ws rs).getD v [] = ws.getD v [] ++ (rs.filter (fun r => r.1 == v)).map (·.2)
  | [], ws, _, v => by show ws.getD v [] = _; simp
  | r :: rs, ws, h, v => by
    show (Book.rewatch (ws.modify r.1 (fun l => l ++ [r.2])) rs).getD v [] = _
    rw [rewatch_get (by intro s hs; rw [List.length_modify]; exact h s (List.mem_cons_of_mem _ hs))]
    have hr := h r (List.mem_cons_self ..)
    simp only [List.getD_eq_getElem?_getD]
    rw [List.getElem?_modify]
    by_cases hv : r.1 = v
    · subst hv
      rw [List.filter_cons_of_pos (by simp), List.getElem?_eq_getElem hr]
      simp
    · rw [List.filter_cons_of_neg (by simpa using hv)]
      cases hw : ws[v]? <;> simp [hv]

/-- Closing a level whose changes of bounds have been undone. -/
theorem BI.leave {l : Lvl} {ls : List Lvl} (hl : b.levels = l :: ls) (h : BI (vs, b)) (hpos : 0 < l.level) (hL : b.undoLower.length = l.undoLowerOff)
    (hU : b.undoUpper.length = l.undoUpperOff) :
    BI (vs, { b.undoRest l with levels := ls, inLdiff := [], inUdiff := [] }) ∧ alF (vs, b) l.level = loF (vs, b) ∧ auF (vs, b) l.level = upF (vs, b) ∧
      b.inLdiff = [] ∧ b.inUdiff = [] := by
  have hlt := h.below hl
  have cL := h.cutL
  have cU := h.cutU
  have cI := h.cutI
  have cR := h.cutR
  have sL := h.low
  have sU := h.upp
  have iA := h.inac
  have iB := h.inac'
  simp only at cL cU cI cR sL sU iA iB
  rw [hl] at cL cU cI cR sL sU iA iB
  have eL : cuts Lvl.undoLowerOff (l :: ls) b.undoLower = (l.level, []) :: cuts Lvl.undoLowerOff ls b.undoLower := by
    show (l.level, b.undoLower.drop l.undoLowerOff) :: cuts Lvl.undoLowerOff ls (b.undoLower.take l.undoLowerOff) = _
    rw [← hL, List.drop_length, List.take_length]
  have eU : cuts Lvl.undoUpperOff (l :: ls) b.undoUpper = (l.level, []) :: cuts Lvl.undoUpperOff ls b.undoUpper := by
    show (l.level, b.undoUpper.drop l.undoUpperOff) :: cuts Lvl.undoUpperOff ls (b.undoUpper.take l.undoUpperOff) = _
    rw [← hU, List.drop_length, List.take_length]
  have cL' : CutOK Lvl.undoLowerOff ls b.undoLower := by have := cL.2; rw [← hL, List.take_length] at this; exact this
  have cU' : CutOK Lvl.undoUpperOff ls b.undoUpper := by have := cU.2; rw [← hU, List.take_length] at this; exact this
  have hchgL : b.inLdiff = [] := by
    rw [List.eq_nil_iff_forall_not_mem]
    intro w hw
    have := sL.pend w ((sL.chgd w).mp hw) (l.level, []) (by rw [eL]; rfl) hpos
    cases this
  have hchgU : b.inUdiff = [] := by
    rw [List.eq_nil_iff_forall_not_mem]
    intro w hw
    have := sU.pend w ((sU.chgd w).mp hw) (l.level, []) (by rw [eU]; rfl) hpos
    cases this
  rw [eL] at sL
  rw [eU] at sU
  obtain ⟨sL1, sL2, sL3⟩ := sL.leave hpos (below_cuts hlt)
  obtain ⟨sU1, sU2, sU3⟩ := sU.leave hpos (below_cuts hlt)
  have hal : alF (vs, b) l.level = loF (vs, b) := funext sL3
  have hau : auF (vs, b) l.level = upF (vs, b) := by
    funext w; unfold auF; rw [sU3 w]; omega
  refine ⟨?_, hal, hau, hchgL, hchgU⟩
  have hrm : ∀ r ∈ b.removed.drop l.removedOff, r.1 < b.watches.length ∧ r.2.2 < b.cs.length := by
    intro r hr
    have := h.rngR r (List.mem_of_mem_drop hr)
    have hw := h.lenW
    simp only at this hw; omega
  have hcs : ∀ {m : Nat} {c' : CState}, (b.undoRest l).cs[m]? = some c' → ∃ c, b.cs[m]? = some c ∧ SameC c c' ∧ c'.alive = c.alive ∧
      c'.inactive = if m ∈ b.inactive.drop l.inactiveOff then 0 else c.inactive := by
    intro m c' hc'
    unfold Book.undoRest Book.unmarkTodo Book.activate at hc'
    simp only at hc'
    rw [foldl_modify (f := fun c => { c with todo := false }) (fun _ => rfl), foldl_modify (f := fun c => { c with inactive := 0 }) (fun _ => rfl)] at hc'
    cases hc : b.cs[m]? with
    | none => rw [hc] at hc'; cases hc'
    | some c =>
      rw [hc] at hc'
      simp only [Option.map_some, Option.some.injEq] at hc'
      subst hc'
      refine ⟨c, rfl, ?_, ?_, ?_⟩
      · split_ifs <;> exact ⟨rfl, rfl, rfl, rfl, rfl, rfl, rfl, rfl, .refl _, id⟩
      · split_ifs <;> rfl
      · split_ifs <;> rfl
  have hlen : (b.undoRest l).cs.length = b.cs.length := by
    unfold Book.undoRest Book.unmarkTodo Book.activate; simp only
    rw [foldl_modify_len, foldl_modify_len]
  have hwt : ∀ w, (b.undoRest l).watches.getD w [] = b.watches.getD w [] ++ ((b.removed.drop l.removedOff).filter (fun r => r.1 == w)).map (·.2) :=
    rewatch_get (fun r hr => (hrm r hr).1)
  have eI : cuts Lvl.inactiveOff (l :: ls) b.inactive = (l.level, b.inactive.drop l.inactiveOff) :: cuts Lvl.inactiveOff ls (b.inactive.take l.inactiveOff) := rfl
  rw [eI] at iA iB
  have hact : ∀ {n : Nat} {c : CState}, b.cs[n]? = some c → n ∈ b.inactive.drop l.inactiveOff → c.inactive = l.level + 1 :=
    fun {n c} hc hn => iA (l.level, b.inactive.drop l.inactiveOff) (List.mem_cons_self ..) hpos n hn c hc
  refine ⟨?_, h.lenL, h.lenU, ?_, cL', cU', cI.2, cR.2, sL1, sU1, ?_, ?_, ?_, ?_, ?_, ?_, ?_, ?_⟩
  · show (Book.rewatch b.watches (b.removed.drop l.removedOff)).length = _
    rw [rewatch_len]; exact h.lenW
  · have := h.dec
    simp only at this
    rw [hl, List.map_cons, List.pairwise_cons] at this
    exact this.2
  · intro s hs h0 n hn c' hc'
    obtain ⟨c, h1, h2, h3, h4⟩ := hcs hc'
    have := iA s (List.mem_cons_of_mem _ hs) h0 n hn c h1
    rw [h4, if_neg, this]
    intro hin
    have h5 := hact h1 hin
    have h6 : s.1 < l.level := below_cuts hlt s hs
    omega
  · intro n c' hc' h0
    obtain ⟨c, h1, h2, h3, h4⟩ := hcs hc'
    by_cases hin : n ∈ b.inactive.drop l.inactiveOff
    · rw [h4, if_pos hin] at h0; omega
    · rw [h4, if_neg hin] at h0 ⊢
      obtain ⟨s, hs, h5, h6⟩ := iB n c h1 h0
      rcases List.mem_cons.mp hs with rfl | hs
      · exact absurd h5 hin
      · exact ⟨s, hs, h5, h6⟩
  · intro n c' hc' ha
    obtain ⟨c, h1, h2, h3, h4⟩ := hcs hc'
    have ht := h.track n c h1 (by rw [← h3]; exact ha)
    refine Tracked.leave (V := viewF (vs, b)) (k := l.level) (rs := b.removed.drop l.removedOff)
      (segs := cuts Lvl.removedOff ls (b.removed.take l.removedOff)) ?_ rfl (below_cuts hlt) ?_ rfl rfl rfl rfl ?_ h2 h2.con ?_ ht
    · simp only [viewF]; rw [hl]; rfl
    · intro w
      unfold View.have gones
      have e : (viewF (vs, { b.undoRest l with levels := ls, inLdiff := [], inUdiff := [] })).wt w = (b.undoRest l).watches.getD w [] := rfl
      rw [e, hwt, List.filter_append, List.filter_map, List.filter_filter]
      congr 1
      refine congrArg (List.map _) (List.filter_congr (fun r _ => ?_))
      simp only [Function.comp, Bool.and_comm]
    · simp only [viewF]
      rw [hal, hau]
      have e1 : ∀ w, ldF (vs, b) w = 0 := sL2
      have e2 : ∀ w, udF (vs, b) w = 0 := fun w => by have := sU2 w; omega
      constructor
      · funext w; rw [e1]; omega
      · funext w; rw [e2]; omega
    · by_cases hin : n ∈ b.inactive.drop l.inactiveOff
      · right; rw [h4, if_pos hin]; exact ⟨rfl, hact h1 hin⟩
      · left; rw [h4, if_neg hin]
  · intro n hn; cases hn
  · intro w x hx
    show x.2 < (b.undoRest l).cs.length
    rw [hlen]
    have hx : x ∈ (b.undoRest l).watches.getD w [] := hx
    rw [hwt] at hx
    rcases List.mem_append.mp hx with hx | hx
    · exact h.rngW w x hx
    · obtain ⟨r, hr, rfl⟩ := List.mem_map.mp hx
      exact (hrm r (List.mem_of_mem_filter hr)).2
  · intro r hr
    show _ ∧ _ < (b.undoRest l).cs.length
    rw [hlen]
    exact h.rngR r (List.mem_of_mem_take hr)
  · intro n hn
    show n < (b.undoRest l).cs.length
    rw [hlen]; exact h.rngI n (List.mem_of_mem_take hn)
  · intro n hn; cases hn

theorem BI.noneL {l : Lvl} {ls : List Lvl} (hl : b.levels = l :: ls) (h : BI (vs, b)) (hpos : 0 < l.level) (hL : b.undoLower.length = l.undoLowerOff) :
    b.inLdiff = [] := by
  have sL := h.low
  simp only at sL
  rw [hl] at sL
  have eL : cuts Lvl.undoLowerOff (l :: ls) b.undoLower = (l.level, []) :: cuts Lvl.undoLowerOff ls b.undoLower := by
    show (l.level, b.undoLower.drop l.undoLowerOff) :: cuts Lvl.undoLowerOff ls (b.undoLower.take l.undoLowerOff) = _
    rw [← hL, List.drop_length, List.take_length]
  rw [List.eq_nil_iff_forall_not_mem]
  intro w hw
  have := sL.pend w ((sL.chgd w).mp hw) (l.level, []) (by rw [eL]; rfl) hpos
  cases this

theorem BI.noneU {l : Lvl} {ls : List Lvl} (hl : b.levels = l :: ls) (h : BI (vs, b)) (hpos : 0 < l.level) (hL : b.undoUpper.length = l.undoUpperOff) :
    b.inUdiff = [] := by
  have sL := h.upp
  simp only at sL
  rw [hl] at sL
  have eL : cuts Lvl.undoUpperOff (l :: ls) b.undoUpper = (l.level, []) :: cuts Lvl.undoUpperOff ls b.undoUpper := by
    show (l.level, b.undoUpper.drop l.undoUpperOff) :: cuts Lvl.undoUpperOff ls (b.undoUpper.take l.undoUpperOff) = _
    rw [← hL, List.drop_length, List.take_length]
  rw [List.eq_nil_iff_forall_not_mem]
  intro w hw
  have := sL.pend w ((sL.chgd w).mp hw) (l.level, []) (by rw [eL]; rfl) hpos
  cases this

theorem vars_set {W : World} {v : Nat} {y : VarState} : (W.vars.set v y).map VarState.bounds = (W.vars.map VarState.bounds).set v y.bounds := by
  rw [List.map_set]

/-- Undoing the changes of lower bounds of the current level. -/
theorem undoLowers_eff {l : Lvl} {ls : List Lvl} {base : List Nat} (hbase : base.length = l.undoLowerOff) : ∀ {us : List Nat} {W W' : World} {u : Unit},
    undoLowers us W = .ok (u, W') → ∀ {chg : List Nat}, W.book.levels = l :: ls →
    BI ((frame W).1, { W.book with undoLower := base ++ us, inLdiff := chg }) →
    ∃ chg', BI ((frame W').1, { W'.book with undoLower := base, inLdiff := chg' }) ∧
      W'.book.levels = W.book.levels ∧ W'.book.undoLower = W.book.undoLower ∧ W'.book.undoUpper = W.book.undoUpper ∧ W'.book.inUdiff = W.book.inUdiff ∧
      ∀ k, k ≤ l.level → alF (frame W') k = alF (frame W) k ∧ auF (frame W') k = auF (frame W) k
  | [], W, W', u, h, chg, hl, hb => by
    obtain ⟨-, rfl⟩ := pure_iff.mp h
    rw [List.append_nil] at hb
    exact ⟨chg, hb, rfl, rfl, rfl, rfl, fun _ _ => ⟨rfl, rfl⟩⟩
  | v :: us, W, W', u, h, chg, hl, hb => by
    unfold undoLowers at h
    simp only [smok] at h
    obtain ⟨_, W1, h1, h2⟩ := h
    unfold undoLowerVar at h1
    simp only [smok] at h1
    obtain ⟨y, W2, ⟨hv, rfl⟩, y', W3, ⟨hpop, rfl⟩, _, W4, rfl, rfl⟩ := h1
    unfold VarState.popLower at hpop
    cases hst : y.lowerStack with
    | nil => rw [hst] at hpop; cases hpop
    | cons p st =>
      obtain ⟨j, z⟩ := p
      rw [hst] at hpop
      injection hpop with hpop
      subst hpop
      have hv' : (frame W3).1[v]? = some y.bounds := by simp [frame, List.getElem?_map, hv]
      obtain ⟨i1, i2⟩ := BI.undoLower (b := W3.book) hl hbase hb hv' (j := j) (z := z) (st := st) hst rfl rfl
      obtain ⟨chg', j1, j2, j3, j4, j5, j6⟩ := undoLowers_eff hbase h2 (chg := chg.erase v) hl (by simp only [frame, vars_set]; exact i1)
      refine ⟨chg', j1, j2, j3, j4, j5, fun k hk => ?_⟩
      obtain ⟨k1, k2⟩ := j6 k hk
      obtain ⟨k3, k4⟩ := i2 k hk
      constructor
      · rw [k1, show alF (frame W3) k = alF ((frame W3).1, W3.book) k from rfl, ← k3]
        simp only [frame, vars_set]; rfl
      · rw [k2, show auF (frame W3) k = auF ((frame W3).1, W3.book) k from rfl, ← k4]
        simp only [frame, vars_set]; rfl

/-- Undoing the changes of upper bounds of the current level. -/
theorem undoUppers_eff {l : Lvl} {ls : List Lvl} {base : List Nat} (hbase : base.length = l.undoUpperOff) : ∀ {us : List Nat} {W W' : World} {u : Unit},
    undoUppers us W = .ok (u, W') → ∀ {chg : List Nat}, W.book.levels = l :: ls →
    BI ((frame W).1, { W.book with undoUpper := base ++ us, inUdiff := chg }) →
    ∃ chg', BI ((frame W').1, { W'.book with undoUpper := base, inUdiff := chg' }) ∧
      W'.book.levels = W.book.levels ∧ W'.book.undoLower = W.book.undoLower ∧ W'.book.undoUpper = W.book.undoUpper ∧ W'.book.inLdiff = W.book.inLdiff ∧
      ∀ k, k ≤ l.level → alF (frame W') k = alF (frame W) k ∧ auF (frame W') k = auF (frame W) k
  | [], W, W', u, h, chg, hl, hb => by
    obtain ⟨-, rfl⟩ := pure_iff.mp h
    rw [List.append_nil] at hb
    exact ⟨chg, hb, rfl, rfl, rfl, rfl, fun _ _ => ⟨rfl, rfl⟩⟩
  | v :: us, W, W', u, h, chg, hl, hb => by
    unfold undoUppers at h
    simp only [smok] at h
    obtain ⟨_, W1, h1, h2⟩ := h
    unfold undoUpperVar at h1
    simp only [smok] at h1
    obtain ⟨y, W2, ⟨hv, rfl⟩, y', W3, ⟨hpop, rfl⟩, _, W4, rfl, rfl⟩ := h1
    unfold VarState.popUpper at hpop
    cases hst : y.upperStack with
    | nil => rw [hst] at hpop; cases hpop
    | cons p st =>
      obtain ⟨j, z⟩ := p
      rw [hst] at hpop
      injection hpop with hpop
      subst hpop
      have hv' : (frame W3).1[v]? = some y.bounds := by simp [frame, List.getElem?_map, hv]
      obtain ⟨i1, i2⟩ := BI.undoUpper (b := W3.book) hl hbase hb hv' (j := j) (z := z) (st := st) hst rfl rfl
      obtain ⟨chg', j1, j2, j3, j4, j5, j6⟩ := undoUppers_eff hbase h2 (chg := chg.erase v) hl (by simp only [frame, vars_set]; exact i1)
      refine ⟨chg', j1, j2, j3, j4, j5, fun k hk => ?_⟩
      obtain ⟨k1, k2⟩ := j6 k hk
      obtain ⟨k3, k4⟩ := i2 k hk
      constructor
      · rw [k1, show alF (frame W3) k = alF ((frame W3).1, W3.book) k from rfl, ← k3]
        simp only [frame, vars_set]; rfl
      · rw [k2, show auF (frame W3) k = auF ((frame W3).1, W3.book) k from rfl, ← k4]
        simp only [frame, vars_set]; rfl

/-- Undoing the current level restores the bounds before it has been opened. -/
theorem solverUndo_eff {u : Unit} (h : solverUndo W = .ok (u, W')) (hb : BI (frame W)) : ∃ l ls, W.book.levels = l :: ls ∧ 0 < l.level ∧
    BI (frame W') ∧ W'.book.levels = ls ∧ Still (frame W') ∧ W'.book.todo = [] ∧ loF (frame W') = alF (frame W) l.level ∧ upF (frame W') = auF (frame W) l.level ∧
    ∀ k, k ≤ l.level → alF (frame W') k = alF (frame W) k ∧ auF (frame W') k = auF (frame W) k := by
  unfold solverUndo levelUndo at h
  simp only [smok] at h
  obtain ⟨l, W1, ⟨hl, rfl⟩, _, W2, ⟨hpos, rfl⟩, _, W3, h3, h⟩ := h
  obtain ⟨W4, W5, ⟨rfl, rfl⟩, _, W6, h6, _, W7, rfl, W8, W9, ⟨rfl, rfl⟩, _, W10, h10, _, W11, rfl, rfl⟩ := h3
  obtain ⟨_, W12, rfl, _, W13, ⟨-, rfl⟩, -⟩ := h
  obtain ⟨ls, hls⟩ : ∃ ls, W5.book.levels = l :: ls := by
    cases hc : W5.book.levels with
    | nil => rw [hc] at hl; cases hl
    | cons x xs => rw [hc] at hl; injection hl with hl; subst hl; exact ⟨xs, rfl⟩
  have hpos : 0 < l.level := by simp at hpos; omega
  refine ⟨l, ls, hls, hpos, ?_⟩
  have cL := hb.cutL
  simp only [frame] at cL
  rw [hls] at cL
  obtain ⟨chg1, i1, i2, i3, i4, i5, i6⟩ := undoLowers_eff (l := l) (ls := ls) (base := W5.book.undoLower.take l.undoLowerOff) (by
      rw [List.length_take]; have := cL.1; omega) h6 (chg := W5.book.inLdiff) hls (by
      rw [List.take_append_drop]; exact hb)
  have e1 : (W5.book.undoLower.take l.undoLowerOff).length = l.undoLowerOff := by
    rw [List.length_take]; have := cL.1; omega
  have n1 : chg1 = [] := BI.noneL (b := { W6.book with undoLower := W5.book.undoLower.take l.undoLowerOff, inLdiff := chg1 }) (i2.trans hls) i1 hpos e1
  subst n1
  have cU := i1.cutU
  simp only [frame] at cU
  rw [i2, hls] at cU
  have e2 : (W6.book.undoUpper.take l.undoUpperOff).length = l.undoUpperOff := by
    rw [List.length_take]; have := cU.1; omega
  rw [← i3] at i1
  obtain ⟨chg2, j1, j2, j3, j4, j5, j6⟩ := undoUppers_eff (l := l) (ls := ls) (base := W6.book.undoUpper.take l.undoUpperOff) e2 h10 (chg := W6.book.inUdiff)
    (i2.trans hls) (by rw [List.take_append_drop]; exact i1)
  have n2 : chg2 = [] := BI.noneU (b := { W10.book with undoUpper := W6.book.undoUpper.take l.undoUpperOff, inUdiff := chg2 }) (j2.trans (i2.trans hls)) j1 hpos e2
  subst n2
  have hlv : W10.book.levels = l :: ls := j2.trans (i2.trans hls)
  have j4' : W10.book.undoUpper = W6.book.undoUpper := j4
  have j3' : W10.book.undoLower.length = l.undoLowerOff := by rw [j3]; show (W6.book.undoLower.take l.undoLowerOff).length = _; rw [i3]; exact e1
  obtain ⟨k1, k2, k3, -, -⟩ := BI.leave (b := { W10.book with undoUpper := W6.book.undoUpper.take l.undoUpperOff, inUdiff := [] }) hlv j1 hpos j3' e2
  have hsnap : ∀ k, k ≤ l.level → alF (frame W10) k = alF (frame W5) k ∧ auF (frame W10) k = auF (frame W5) k := by
    intro k hk
    obtain ⟨m1, m2⟩ := j6 k hk
    obtain ⟨m3, m4⟩ := i6 k hk
    exact ⟨m1.trans m3, m2.trans m4⟩
  have k2' : alF (frame W10) l.level = loF (frame W10) := k2
  have k3' : auF (frame W10) l.level = upF (frame W10) := k3
  have hin : W10.book.inLdiff = [] := j5
  refine ⟨?_, ?_, ?_, rfl, ?_, ?_, hsnap⟩
  · have : frame { W10 with book := { (Book.undoRest l { W10.book with undoUpper := W10.book.undoUpper.take l.undoUpperOff, inUdiff := [] }) with
        levels := W10.book.levels.tail } } = ((frame W10).1, { (Book.undoRest l { W10.book with undoUpper := W6.book.undoUpper.take l.undoUpperOff, inUdiff := [] }) with
        levels := ls, inLdiff := [], inUdiff := [] }) := by
      unfold frame Book.undoRest
      simp only [j4', hlv, List.tail_cons, hin]
    rw [← this] at k1
    exact k1
  · show W10.book.levels.tail = ls
    rw [hlv]; rfl
  · exact ⟨hin, rfl⟩
  · show loF (frame W10) = _
    rw [← k2', (hsnap l.level le_rfl).1]
  · show upF (frame W10) = _
    rw [← k3', (hsnap l.level le_rfl).2]

end Clingcon
