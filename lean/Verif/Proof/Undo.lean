import Verif.Proof.Deliver

/-! Undoing levels. -/
set_option linter.unusedSimpArgs false
namespace Clingcon
open Spec VarState

variable {vs : List VarState} {b b' : Book} {v : Nat} {y : VarState}

theorem undo_cs {d : Int} {ws : List (Int × Nat)} {cs : List CState} {n : Nat} {c' : CState}
    (h : (if d ≠ 0 then Book.undoWatches d ws cs else cs)[n]? = some c') : ∃ c, cs[n]? = some c ∧ SameF c c' ∧
      (d = 0 → c' = c) ∧ (d ≠ 0 → ((ws.filter (fun w => w.2 == n)) = [] → SameC c c') ∧
      ∀ up aL aU done, (if up then d < 0 else 0 < d) → Mid up c aL aU (-d) done →
        Mid up c' aL aU (-d) (((ws.filter (fun w => w.2 == n)).map (·.1)).reverse ++ done)) := by
  by_cases hd : d = 0
  · rw [if_neg (by simpa using hd)] at h
    exact ⟨c', h, SameF.refl _, fun _ => rfl, fun h => absurd hd h⟩
  · rw [if_pos hd] at h
    obtain ⟨h1, h2⟩ := @undoWatches_eff d ws cs
    obtain ⟨c, hc⟩ := getElem?_of_len h1 h
    obtain ⟨c2, h3, h4, h5, h6⟩ := h2 n c hc
    rw [h] at h3; injection h3 with h3; subst h3
    exact ⟨c, hc, h4, fun h => absurd h hd, fun _ => ⟨h5, h6⟩⟩

theorem cuts_at {α : Type} {off : Lvl → Nat} {l : Lvl} {ls : List Lvl} {base us : List α} (h : base.length = off l) :
    cuts off (l :: ls) (base ++ us) = (l.level, us) :: cuts off ls base := by
  show (l.level, (base ++ us).drop (off l)) :: cuts off ls ((base ++ us).take (off l)) = _
  rw [← h, List.drop_left, List.take_left]

theorem undo_len {d : Int} {ws : List (Int × Nat)} {cs : List CState} : (if d ≠ 0 then Book.undoWatches d ws cs else cs).length = cs.length := by
  split_ifs
  · exact (@undoWatches_eff d ws cs).1
  · rfl

/-- Undoing the change of a lower bound. -/
theorem BI.undoLower {l : Lvl} {ls : List Lvl} {base us chg : List Nat} (hl : b.levels = l :: ls) (hbase : base.length = l.undoLowerOff)
    (h : BI (vs, { b with undoLower := base ++ v :: us, inLdiff := chg })) (hv : vs[v]? = some y) {j : Nat} {z : Int} {st : List (Nat × Int)}
    (hst : y.lowerStack = (j, z) :: st) {d : Int} (hd : d = y.lower - z - b.ldiff.getD v 0) {F' : List VarState × Book}
    (hF : F' = (vs.set v { y with lower := z, lowerStack := st },
      { b with
        undoLower := base ++ us
        inLdiff := chg.erase v
        cs := if d ≠ 0 then Book.undoWatches d (b.watches.getD v []) b.cs else b.cs
        ldiff := b.ldiff.set v 0 })) :
    BI F' ∧ ∀ k, k ≤ l.level → alF F' k = alF (vs, b) k ∧ auF F' k = auF (vs, b) k := by
  set F : List VarState × Book := (vs, { b with undoLower := base ++ v :: us, inLdiff := chg }) with hFd
  have hvl : v < vs.length := (List.getElem?_eq_some_iff.mp hv).1
  have hlt := h.below hl
  have e1 : loF F' = Function.update (loF F) v z := by rw [hF, loF_set hvl (b := b)]; rfl
  have e2 : upF F' = upF F := by
    rw [hF, upF_set hvl (b := b)]
    have : upF F = upF (vs, b) := rfl
    rw [this]
    apply update_same; unfold upF; simp only; rw [hv]
  have e3 : lstF F' = Function.update (lstF F) v st := by rw [hF, lstF_set hvl (b := b)]; rfl
  have e4 : ustF F' = ustF F := by
    rw [hF, ustF_set hvl (b := b)]
    have : ustF F = ustF (vs, b) := rfl
    rw [this]
    apply update_same; unfold ustF; simp only; rw [hv]
  have e5 : ldF F' = Function.update (ldF F) v 0 := by
    rw [hF]; exact getD_set (by have := h.lenL; simp only [hFd] at this; omega)
  have e6 : udF F' = udF F := by rw [hF]; rfl
  have elo : loF F v = y.lower := by unfold loF; simp only [hFd]; rw [hv]
  have est : lstF F v = (j, z) :: st := by unfold lstF; simp only [hFd]; rw [hv]; exact hst
  have hside := h.low
  have hc1 : cuts Lvl.undoLowerOff F.2.levels F.2.undoLower = (l.level, v :: us) :: cuts Lvl.undoLowerOff ls base := by
    simp only [hFd]; rw [hl]; exact cuts_at hbase
  have hc2 : cuts Lvl.undoLowerOff F'.2.levels F'.2.undoLower = (l.level, us) :: cuts Lvl.undoLowerOff ls base := by
    rw [hF]; simp only; rw [hl]; exact cuts_at hbase
  rw [hc1] at hside
  obtain ⟨p1, p2, p3, p4, p5⟩ := hside.pop (below_cuts hlt) est
  have hal : ∀ k, k ≤ l.level → alF F' k = alF F k := by
    intro k hk
    funext w
    have := p5 k hk w
    unfold alF; rw [e1, e3]; exact this
  have hau : ∀ k, auF F' k = auF F k := by
    intro k; funext w; unfold auF; rw [e2, e4]
  refine ⟨?_, fun k hk => ⟨hal k hk, hau k⟩⟩
  have hlev : ∀ {α : Type} {off : Lvl → Nat} {u : List α}, ∀ s ∈ cuts off F.2.levels u, s.1 ≤ l.level := by
    intro α off u s hs
    obtain ⟨t, ht, he⟩ := cuts_mem_levels hs
    simp only [hFd] at ht; rw [hl] at ht
    rcases List.mem_cons.mp ht with rfl | ht
    · omega
    · have := hlt t ht; omega
  have hdl : d = (viewF F).dl v - alF F l.level v := by
    simp only [viewF]
    have : alF F l.level v = z := p3
    rw [this, elo, hd]; simp only [ldF, hFd]; omega
  have q1 : F'.2.levels = F.2.levels := by rw [hF]
  have q2 : F'.2.cs = if d ≠ 0 then Book.undoWatches d (b.watches.getD v []) b.cs else b.cs := by rw [hF]
  have hcs : ∀ {n : Nat} {c' : CState}, F'.2.cs[n]? = some c' → ∃ c, F.2.cs[n]? = some c ∧ SameF c c' ∧
      (Tracked (viewF F) n c → Tracked (viewF F') n c') := by
    intro n c' hc'
    rw [q2] at hc'
    obtain ⟨c, h1, h2, h3, h4⟩ := undo_cs hc'
    refine ⟨c, h1, h2, fun ht => ?_⟩
    by_cases hd0 : d = 0
    · rw [h3 hd0]
      refine ht.same ⟨by rw [hF]; rfl, by rw [hF]; rfl, ?_, ?_, ?_, ?_⟩ (SameF.refl c) (SameC.refl c)
      · funext w
        have hz : alF F l.level v = z := p3
        rw [hd0, hz] at hdl
        simp only [viewF] at hdl ⊢
        rw [e1, e5]
        by_cases hw : w = v
        · subst hw; rw [Function.update_self, Function.update_self]; omega
        · rw [Function.update_of_ne hw, Function.update_of_ne hw]
      · simp only [viewF]; rw [e2, e6]
      · intro s hs h0; exact hal s.1 (hlev s hs)
      · intro s hs h0; exact hau s.1
    · obtain ⟨h5, h6⟩ := h4 hd0
      have hpos : 0 < d := by rw [hd] at hd0 ⊢; rw [elo] at p2; simp only [ldF, hFd] at p2; omega
      refine Tracked.undoVar (V := viewF F) (V' := viewF F') (k := l.level) (rs := b.removed.drop l.removedOff)
        (ss := cuts Lvl.removedOff ls (b.removed.take l.removedOff)) (v := v) (d := d) (up := false) ?_ (below_cuts hlt) (by rw [hF]; rfl) (by rw [hF]; rfl) ?_ ?_
        ?_ ?_ (by rw [if_neg (by simp)]; exact hpos) h2 h5 h6 ht
      · simp only [viewF, hFd]; rw [hl]; rfl
      · refine ⟨?_, ?_⟩
        · rw [if_neg (by simp)]
          have hz : alF F l.level v = z := p3
          rw [hz] at hdl
          simp only [viewF] at hdl ⊢
          rw [e1, e5]
          funext w
          by_cases hw : w = v
          · subst hw; rw [Function.update_self, Function.update_self, Function.update_self]; omega
          · rw [Function.update_of_ne hw, Function.update_of_ne hw, Function.update_of_ne hw]
        · rw [if_neg (by simp)]; simp only [viewF]; rw [e2, e6]
      · rw [if_neg (by simp)]; rw [hdl]; simp only [viewF]; omega
      · intro s hs; exact hal s.1 (hlev s hs)
      · intro s hs; exact hau s.1
  have hlen : F'.2.cs.length = F.2.cs.length := by rw [q2, undo_len]
  refine ⟨?_, ?_, ?_, by rw [q1]; exact h.dec, ?_, ?_, ?_, ?_, ?_, ?_, ?_, ?_, ?_, ?_, ?_, ?_, ?_, ?_⟩
  · rw [hF]; simpa using h.lenW
  · rw [hF]; simpa using h.lenL
  · rw [hF]; simpa using h.lenU
  · have := h.cutL
    simp only [hFd] at this
    rw [hF]; simp only; rw [hl] at this ⊢
    refine ⟨by rw [← hbase]; simp, ?_⟩
    have h2 := this.2
    rw [← hbase] at h2 ⊢
    simpa using h2
  · rw [hF]; exact h.cutU
  · rw [hF]; exact h.cutI
  · rw [hF]; exact h.cutR
  · rw [hc2, e1, e3, e5]
    have hin : F'.2.inLdiff = chg.erase v := by rw [hF]
    rw [hin]; exact p4
  · rw [e2, e4, e6, hF]; exact h.upp
  · intro s hs h0 n hn c' hc'
    obtain ⟨c, h1, h2, -⟩ := hcs hc'
    rw [h2.inactive]
    exact h.inac s (by rw [hF] at hs; exact hs) h0 n hn c h1
  · intro n c' hc' h0
    obtain ⟨c, h1, h2, -⟩ := hcs hc'
    rw [h2.inactive] at h0 ⊢
    obtain ⟨s, hs, h3⟩ := h.inac' n c h1 h0
    exact ⟨s, by rw [hF]; exact hs, h3⟩
  · intro n c' hc' ha
    obtain ⟨c, h1, h2, h3⟩ := hcs hc'
    exact h3 (h.track n c h1 (by rw [← h2.alive]; exact ha))
  · intro n hn c' hc' t ht
    obtain ⟨c, h1, h2, h3⟩ := hcs hc'
    rw [h2.removableAt]
    exact h.todo n (by rw [hF] at hn; exact hn) c h1 t (by rw [q1] at ht; exact ht)
  · rw [hlen]; intro w x hx; exact h.rngW w x (by rw [hF] at hx; exact hx)
  · rw [hlen]; intro r hr
    have := h.rngR r (by rw [hF] at hr; exact hr)
    rw [hF]; simpa using this
  · rw [hlen]; intro n hn; exact h.rngI n (by rw [hF] at hn; exact hn)
  · rw [hlen]; intro n hn; exact h.rngT n (by rw [hF] at hn; exact hn)

/-- Undoing the change of an upper bound. -/
theorem BI.undoUpper {l : Lvl} {ls : List Lvl} {base us chg : List Nat} (hl : b.levels = l :: ls) (hbase : base.length = l.undoUpperOff)
    (h : BI (vs, { b with undoUpper := base ++ v :: us, inUdiff := chg })) (hv : vs[v]? = some y) {j : Nat} {z : Int} {st : List (Nat × Int)}
    (hst : y.upperStack = (j, z) :: st) {d : Int} (hd : d = y.upper - z - b.udiff.getD v 0) {F' : List VarState × Book}
    (hF : F' = (vs.set v { y with upper := z, upperStack := st },
      { b with
        undoUpper := base ++ us
        inUdiff := chg.erase v
        cs := if d ≠ 0 then Book.undoWatches d (b.watches.getD v []) b.cs else b.cs
        udiff := b.udiff.set v 0 })) :
    BI F' ∧ ∀ k, k ≤ l.level → alF F' k = alF (vs, b) k ∧ auF F' k = auF (vs, b) k := by
  set F : List VarState × Book := (vs, { b with undoUpper := base ++ v :: us, inUdiff := chg }) with hFd
  have hvl : v < vs.length := (List.getElem?_eq_some_iff.mp hv).1
  have hlt := h.below hl
  have e1 : upF F' = Function.update (upF F) v z := by rw [hF, upF_set hvl (b := b)]; rfl
  have e2 : loF F' = loF F := by
    rw [hF, loF_set hvl (b := b)]
    have : loF F = loF (vs, b) := rfl
    rw [this]
    apply update_same; unfold loF; simp only; rw [hv]
  have e3 : ustF F' = Function.update (ustF F) v (negStk st) := by rw [hF, ustF_set hvl (b := b)]; rfl
  have e4 : lstF F' = lstF F := by
    rw [hF, lstF_set hvl (b := b)]
    have : lstF F = lstF (vs, b) := rfl
    rw [this]
    apply update_same; unfold lstF; simp only; rw [hv]
  have e5 : udF F' = Function.update (udF F) v 0 := by
    rw [hF]; exact getD_set (by have := h.lenU; simp only [hFd] at this; omega)
  have e6 : ldF F' = ldF F := by rw [hF]; rfl
  have elo : upF F v = y.upper := by unfold upF; simp only [hFd]; rw [hv]
  have est : ustF F v = (j, -z) :: negStk st := by unfold ustF; simp only [hFd]; rw [hv]; simp only [hst]; rfl
  have hside := h.upp
  have hc1 : cuts Lvl.undoUpperOff F.2.levels F.2.undoUpper = (l.level, v :: us) :: cuts Lvl.undoUpperOff ls base := by
    simp only [hFd]; rw [hl]; exact cuts_at hbase
  have hc2 : cuts Lvl.undoUpperOff F'.2.levels F'.2.undoUpper = (l.level, us) :: cuts Lvl.undoUpperOff ls base := by
    rw [hF]; simp only; rw [hl]; exact cuts_at hbase
  rw [hc1] at hside
  obtain ⟨p1, p2, p3, p4, p5⟩ := hside.pop (below_cuts hlt) est
  have hau : ∀ k, k ≤ l.level → auF F' k = auF F k := by
    intro k hk
    funext w
    have := p5 k hk w
    unfold auF
    have e1' : -upF F' w = Function.update (fun v => -upF F v) v (-z) w := by rw [e1]; exact congrFun update_neg w
    rw [e1', e3]; exact congrArg (fun x => -x) this
  have hal : ∀ k, alF F' k = alF F k := by
    intro k; funext w; unfold alF; rw [e2, e4]
  refine ⟨?_, fun k hk => ⟨hal k, hau k hk⟩⟩
  have hz : auF F l.level v = z := by unfold auF; rw [p3]; omega
  have hlev : ∀ {α : Type} {off : Lvl → Nat} {u : List α}, ∀ s ∈ cuts off F.2.levels u, s.1 ≤ l.level := by
    intro α off u s hs
    obtain ⟨t, ht, he⟩ := cuts_mem_levels hs
    simp only [hFd] at ht; rw [hl] at ht
    rcases List.mem_cons.mp ht with rfl | ht
    · omega
    · have := hlt t ht; omega
  have hdl : d = (viewF F).du v - auF F l.level v := by
    simp only [viewF]
    rw [hz, elo, hd]; simp only [udF, hFd]; omega
  have q1 : F'.2.levels = F.2.levels := by rw [hF]
  have q2 : F'.2.cs = if d ≠ 0 then Book.undoWatches d (b.watches.getD v []) b.cs else b.cs := by rw [hF]
  have hcs : ∀ {n : Nat} {c' : CState}, F'.2.cs[n]? = some c' → ∃ c, F.2.cs[n]? = some c ∧ SameF c c' ∧
      (Tracked (viewF F) n c → Tracked (viewF F') n c') := by
    intro n c' hc'
    rw [q2] at hc'
    obtain ⟨c, h1, h2, h3, h4⟩ := undo_cs hc'
    refine ⟨c, h1, h2, fun ht => ?_⟩
    by_cases hd0 : d = 0
    · rw [h3 hd0]
      refine ht.same ⟨by rw [hF]; rfl, by rw [hF]; rfl, ?_, ?_, ?_, ?_⟩ (SameF.refl c) (SameC.refl c)
      · simp only [viewF]; rw [e2, e6]
      · funext w
        rw [hd0, hz] at hdl
        simp only [viewF] at hdl ⊢
        rw [e1, e5]
        by_cases hw : w = v
        · subst hw; rw [Function.update_self, Function.update_self]; omega
        · rw [Function.update_of_ne hw, Function.update_of_ne hw]
      · intro s hs h0; exact hal s.1
      · intro s hs h0; exact hau s.1 (hlev s hs)
    · obtain ⟨h5, h6⟩ := h4 hd0
      have hpos : d < 0 := by rw [hd] at hd0 ⊢; rw [elo] at p2; simp only [udF, hFd] at p2; omega
      refine Tracked.undoVar (V := viewF F) (V' := viewF F') (k := l.level) (rs := b.removed.drop l.removedOff)
        (ss := cuts Lvl.removedOff ls (b.removed.take l.removedOff)) (v := v) (d := d) (up := true) ?_ (below_cuts hlt) (by rw [hF]; rfl) (by rw [hF]; rfl) ?_ ?_
        ?_ ?_ (by rw [if_pos rfl]; exact hpos) h2 h5 h6 ht
      · simp only [viewF, hFd]; rw [hl]; rfl
      · refine ⟨?_, ?_⟩
        · rw [if_pos rfl]; simp only [viewF]; rw [e2, e6]
        · rw [if_pos rfl]
          rw [hz] at hdl
          simp only [viewF] at hdl ⊢
          rw [e1, e5]
          funext w
          by_cases hw : w = v
          · subst hw; rw [Function.update_self, Function.update_self, Function.update_self]; omega
          · rw [Function.update_of_ne hw, Function.update_of_ne hw, Function.update_of_ne hw]
      · rw [if_pos rfl]; rw [hdl]; simp only [viewF]; omega
      · intro s hs; exact hal s.1
      · intro s hs; exact hau s.1 (hlev s hs)
  have hlen : F'.2.cs.length = F.2.cs.length := by rw [q2, undo_len]
  refine ⟨?_, ?_, ?_, by rw [q1]; exact h.dec, ?_, ?_, ?_, ?_, ?_, ?_, ?_, ?_, ?_, ?_, ?_, ?_, ?_, ?_⟩
  · rw [hF]; simpa using h.lenW
  · rw [hF]; simpa using h.lenL
  · rw [hF]; simpa using h.lenU
  · rw [hF]; exact h.cutL
  · have := h.cutU
    simp only [hFd] at this
    rw [hF]; simp only; rw [hl] at this ⊢
    refine ⟨by rw [← hbase]; simp, ?_⟩
    have h2 := this.2
    rw [← hbase] at h2 ⊢
    simpa using h2
  · rw [hF]; exact h.cutI
  · rw [hF]; exact h.cutR
  · rw [e2, e4, e6, hF]; exact h.low
  · have hin : F'.2.inUdiff = chg.erase v := by rw [hF]
    have e0 : (fun w => -udF F' w) = Function.update (fun w => -udF F w) v 0 := by rw [e5, update_neg]; rfl
    rw [hc2, e1, e3, e0, update_neg, hin]; exact p4
  · intro s hs h0 n hn c' hc'
    obtain ⟨c, h1, h2, -⟩ := hcs hc'
    rw [h2.inactive]
    exact h.inac s (by rw [hF] at hs; exact hs) h0 n hn c h1
  · intro n c' hc' h0
    obtain ⟨c, h1, h2, -⟩ := hcs hc'
    rw [h2.inactive] at h0 ⊢
    obtain ⟨s, hs, h3⟩ := h.inac' n c h1 h0
    exact ⟨s, by rw [hF]; exact hs, h3⟩
  · intro n c' hc' ha
    obtain ⟨c, h1, h2, h3⟩ := hcs hc'
    exact h3 (h.track n c h1 (by rw [← h2.alive]; exact ha))
  · intro n hn c' hc' t ht
    obtain ⟨c, h1, h2, h3⟩ := hcs hc'
    rw [h2.removableAt]
    exact h.todo n (by rw [hF] at hn; exact hn) c h1 t (by rw [q1] at ht; exact ht)
  · rw [hlen]; intro w x hx; exact h.rngW w x (by rw [hF] at hx; exact hx)
  · rw [hlen]; intro r hr
    have := h.rngR r (by rw [hF] at hr; exact hr)
    rw [hF]; simpa using this
  · rw [hlen]; intro n hn; exact h.rngI n (by rw [hF] at hn; exact hn)
  · rw [hlen]; intro n hn; exact h.rngT n (by rw [hF] at hn; exact hn)

end Clingcon
