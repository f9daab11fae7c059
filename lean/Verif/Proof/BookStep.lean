import Verif.Proof.Book

/-! Steps of the solver maintain the invariant of the bookkeeping. -/
set_option linter.unusedSimpArgs false
namespace Clingcon
open Spec VarState

variable {vs : List VarState} {b b' : Book} {v : Nat} {y : VarState}

theorem view_eta (V : View) (segs wt dl du al au) (h1 : V.segs = segs) (h2 : V.wt = wt) (h3 : V.dl = dl) (h4 : V.du = du) (h5 : V.al = al) (h6 : V.au = au) :
    V = ⟨segs, wt, dl, du, al, au⟩ := by subst h1 h2 h3 h4 h5 h6; rfl

/-- Changes of a lower bound. -/
theorem BI.lower (h : BI (vs, b)) {l : Lvl} {ls : List Lvl} (hl : b.levels = l :: ls) (hv : vs[v]? = some y) {x : Int} (hx : y.lower < x)
    {fresh : Bool} (hf : fresh = (decide (l.level > 0) && !y.pushedLower l.level)) {F' : List VarState × Book}
    (hF : F' = (vs.set v { y with lower := x, lowerStack := if fresh then (l.level, y.lower) :: y.lowerStack else y.lowerStack },
      { b with
        undoLower := if fresh then b.undoLower ++ [v] else b.undoLower
        inLdiff := if b.ldiff.getD v 0 = 0 then b.inLdiff ++ [v] else b.inLdiff
        ldiff := b.ldiff.set v (b.ldiff.getD v 0 + (x - y.lower)) })) :
    BI F' ∧ ∀ k, 0 < k → k ≤ l.level → alF F' k = alF (vs, b) k ∧ auF F' k = auF (vs, b) k := by
  have hvl : v < vs.length := (List.getElem?_eq_some_iff.mp hv).1
  have hlt := h.below hl
  have e1 : loF F' = Function.update (loF (vs, b)) v x := by rw [hF, loF_set hvl (b := b)]
  have e2 : upF F' = upF (vs, b) := by
    rw [hF, upF_set hvl (b := b)]; apply update_same; unfold upF; simp only; rw [hv]
  have e3 : lstF F' = Function.update (lstF (vs, b)) v (if fresh then (l.level, y.lower) :: y.lowerStack else y.lowerStack) := by
    rw [hF, lstF_set hvl (b := b)]
  have e4 : ustF F' = ustF (vs, b) := by
    rw [hF, ustF_set hvl (b := b)]; apply update_same; unfold ustF; simp only; rw [hv]
  have e5 : ldF F' = Function.update (ldF (vs, b)) v (ldF (vs, b) v + (x - y.lower)) := by
    rw [hF]; exact getD_set (by rw [h.lenL]; exact hvl)
  have e6 : udF F' = udF (vs, b) := by rw [hF]; rfl
  have elo : loF (vs, b) v = y.lower := by unfold loF; simp only; rw [hv]
  have est : lstF (vs, b) v = y.lowerStack := by unfold lstF; simp only; rw [hv]
  have hside := h.low
  have hcut := h.cutL
  simp only at hside hcut
  rw [hl] at hside hcut
  have hcons : cuts Lvl.undoLowerOff (l :: ls) b.undoLower = (l.level, b.undoLower.drop l.undoLowerOff) :: cuts Lvl.undoLowerOff ls (b.undoLower.take l.undoLowerOff) := rfl
  rw [hcons] at hside
  have hfr : fresh = true ↔ 0 < l.level ∧ ¬ ∃ z, (lstF (vs, b) v).head? = some (l.level, z) := by
    rw [hf, est]
    unfold VarState.pushedLower
    cases hys : y.lowerStack with
    | nil => simp
    | cons p ps =>
      obtain ⟨j, z⟩ := p
      simp only [gt_iff_lt, Bool.and_eq_true, decide_eq_true_eq, Bool.not_eq_true', beq_eq_false_iff_ne, ne_eq, List.head?_cons, Option.some.injEq, Prod.mk.injEq,
        exists_and_left, exists_eq', and_true]
  obtain ⟨ht, hat⟩ := hside.tighten (v := v) (x := x) (below_cuts hlt) (by rw [elo]; exact hx) fresh hfr
  have hcut' : cuts Lvl.undoLowerOff (l :: ls) (if fresh then b.undoLower ++ [v] else b.undoLower) =
      (l.level, if fresh then b.undoLower.drop l.undoLowerOff ++ [v] else b.undoLower.drop l.undoLowerOff) :: cuts Lvl.undoLowerOff ls (b.undoLower.take l.undoLowerOff) ∧
      CutOK Lvl.undoLowerOff (l :: ls) (if fresh then b.undoLower ++ [v] else b.undoLower) := by
    cases fresh with
    | true => exact cuts_append hcut
    | false => exact ⟨rfl, hcut⟩
  have hal : ∀ k, 0 < k → k ≤ l.level → alF F' k = alF (vs, b) k := by
    intro k h0 hk
    funext w
    have := hat k h0 hk w
    unfold alF
    rw [e1, e3, ← est, ← elo]
    exact this
  have hau : ∀ k, auF F' k = auF (vs, b) k := by
    intro k; funext w; unfold auF; rw [e2, e4]
  refine ⟨?_, fun k h0 hk => ⟨hal k h0 hk, hau k⟩⟩
  have hV : SameV (viewF (vs, b)) (viewF F') := by
    refine ⟨by rw [hF]; rfl, by rw [hF]; rfl, ?_, ?_, ?_, ?_⟩
    · funext w
      simp only [viewF]
      rw [e1, e5]
      by_cases hw : w = v
      · subst hw; rw [Function.update_self, Function.update_self, elo]; omega
      · rw [Function.update_of_ne hw, Function.update_of_ne hw]
    · simp only [viewF]; rw [e2, e6]
    · intro s hs h0
      apply hal s.1 h0
      obtain ⟨t, ht, he⟩ := cuts_mem_levels hs
      simp only at ht; rw [hl] at ht
      rcases List.mem_cons.mp ht with rfl | ht
      · omega
      · have := hlt t ht; omega
    · intro s hs h0; exact hau s.1
  have hlow : SideInv (cuts Lvl.undoLowerOff F'.2.levels F'.2.undoLower) (loF F') (ldF F') (lstF F') F'.2.inLdiff := by
    have hlev : F'.2.levels = l :: ls := by rw [hF]; exact hl
    have hun : F'.2.undoLower = if fresh then b.undoLower ++ [v] else b.undoLower := by rw [hF]
    have hin : F'.2.inLdiff = if b.ldiff.getD v 0 = 0 then b.inLdiff ++ [v] else b.inLdiff := by rw [hF]
    rw [hlev, hun, hin, hcut'.1, e1, e5, e3, ← elo, ← est]
    exact ht
  have hupp : SideInv (cuts Lvl.undoUpperOff F'.2.levels F'.2.undoUpper) (fun v => -upF F' v) (fun v => -udF F' v) (ustF F') F'.2.inUdiff := by
    rw [e2, e4, e6, hF]; exact h.upp
  subst hF
  refine ⟨?_, ?_, ?_, h.dec, ?_, h.cutU, h.cutI, h.cutR, hlow, hupp, h.inac, h.inac', ?_, h.todo, h.rngW, ?_, h.rngI, h.rngT⟩
  · simpa using h.lenW
  · simpa using h.lenL
  · simpa using h.lenU
  · simp only; rw [hl]; exact hcut'.2
  · intro n c hc ha
    exact (h.track n c hc ha).same hV (SameF.refl c) (SameC.refl c)
  · intro r hr; simpa using h.rngR r hr

/-- Changes of an upper bound. -/
theorem BI.upper (h : BI (vs, b)) {l : Lvl} {ls : List Lvl} (hl : b.levels = l :: ls) (hv : vs[v]? = some y) {x : Int} (hx : x < y.upper)
    {fresh : Bool} (hf : fresh = (decide (l.level > 0) && !y.pushedUpper l.level)) {F' : List VarState × Book}
    (hF : F' = (vs.set v { y with upper := x, upperStack := if fresh then (l.level, y.upper) :: y.upperStack else y.upperStack },
      { b with
        undoUpper := if fresh then b.undoUpper ++ [v] else b.undoUpper
        inUdiff := if b.udiff.getD v 0 = 0 then b.inUdiff ++ [v] else b.inUdiff
        udiff := b.udiff.set v (b.udiff.getD v 0 + (x - y.upper)) })) :
    BI F' ∧ ∀ k, 0 < k → k ≤ l.level → alF F' k = alF (vs, b) k ∧ auF F' k = auF (vs, b) k := by
  have hvl : v < vs.length := (List.getElem?_eq_some_iff.mp hv).1
  have hlt := h.below hl
  have e1 : upF F' = Function.update (upF (vs, b)) v x := by rw [hF, upF_set hvl (b := b)]
  have e2 : loF F' = loF (vs, b) := by
    rw [hF, loF_set hvl (b := b)]; apply update_same; unfold loF; simp only; rw [hv]
  have e3 : ustF F' = Function.update (ustF (vs, b)) v (if fresh then (l.level, -y.upper) :: negStk y.upperStack else negStk y.upperStack) := by
    rw [hF, ustF_set hvl (b := b)]; simp only; cases fresh <;> rfl
  have e4 : lstF F' = lstF (vs, b) := by
    rw [hF, lstF_set hvl (b := b)]; apply update_same; unfold lstF; simp only; rw [hv]
  have e5 : udF F' = Function.update (udF (vs, b)) v (udF (vs, b) v + (x - y.upper)) := by
    rw [hF]; exact getD_set (by rw [h.lenU]; exact hvl)
  have e6 : ldF F' = ldF (vs, b) := by rw [hF]; rfl
  have elo : upF (vs, b) v = y.upper := by unfold upF; simp only; rw [hv]
  have est : ustF (vs, b) v = negStk y.upperStack := by unfold ustF; simp only; rw [hv]
  have hside := h.upp
  have hcut := h.cutU
  simp only at hside hcut
  rw [hl] at hside hcut
  have hcons : cuts Lvl.undoUpperOff (l :: ls) b.undoUpper = (l.level, b.undoUpper.drop l.undoUpperOff) :: cuts Lvl.undoUpperOff ls (b.undoUpper.take l.undoUpperOff) := rfl
  rw [hcons] at hside
  have hfr : fresh = true ↔ 0 < l.level ∧ ¬ ∃ z, (ustF (vs, b) v).head? = some (l.level, z) := by
    rw [hf, est]
    unfold VarState.pushedUpper negStk
    cases hys : y.upperStack with
    | nil => simp
    | cons p ps =>
      obtain ⟨j, z⟩ := p
      simp only [List.map_cons, gt_iff_lt, Bool.and_eq_true, decide_eq_true_eq, Bool.not_eq_true', beq_eq_false_iff_ne, ne_eq, List.head?_cons, Option.some.injEq, Prod.mk.injEq,
        exists_and_left, exists_eq', and_true]
  obtain ⟨ht, hat⟩ := hside.tighten (v := v) (x := -x) (below_cuts hlt) (by rw [elo]; omega) fresh hfr
  have hcut' : cuts Lvl.undoUpperOff (l :: ls) (if fresh then b.undoUpper ++ [v] else b.undoUpper) =
      (l.level, if fresh then b.undoUpper.drop l.undoUpperOff ++ [v] else b.undoUpper.drop l.undoUpperOff) :: cuts Lvl.undoUpperOff ls (b.undoUpper.take l.undoUpperOff) ∧
      CutOK Lvl.undoUpperOff (l :: ls) (if fresh then b.undoUpper ++ [v] else b.undoUpper) := by
    cases fresh with
    | true => exact cuts_append hcut
    | false => exact ⟨rfl, hcut⟩
  have hau : ∀ k, 0 < k → k ≤ l.level → auF F' k = auF (vs, b) k := by
    intro k h0 hk
    funext w
    have := hat k h0 hk w
    unfold auF
    have e1' : -upF F' w = Function.update (fun v => -upF (vs, b) v) v (-x) w := by
      rw [e1]; exact congrFun (update_neg) w
    rw [e1', e3, ← est, ← elo]
    exact congrArg (fun z => -z) this
  have hal : ∀ k, alF F' k = alF (vs, b) k := by
    intro k; funext w; unfold alF; rw [e2, e4]
  refine ⟨?_, fun k h0 hk => ⟨hal k, hau k h0 hk⟩⟩
  have hV : SameV (viewF (vs, b)) (viewF F') := by
    refine ⟨by rw [hF]; rfl, by rw [hF]; rfl, ?_, ?_, ?_, ?_⟩
    · simp only [viewF]; rw [e2, e6]
    · funext w
      simp only [viewF]
      rw [e1, e5]
      by_cases hw : w = v
      · subst hw; rw [Function.update_self, Function.update_self, elo]; omega
      · rw [Function.update_of_ne hw, Function.update_of_ne hw]
    · intro s hs h0; exact hal s.1
    · intro s hs h0
      apply hau s.1 h0
      obtain ⟨t, ht, he⟩ := cuts_mem_levels hs
      simp only at ht; rw [hl] at ht
      rcases List.mem_cons.mp ht with rfl | ht
      · omega
      · have := hlt t ht; omega
  have hupp : SideInv (cuts Lvl.undoUpperOff F'.2.levels F'.2.undoUpper) (fun v => -upF F' v) (fun v => -udF F' v) (ustF F') F'.2.inUdiff := by
    have hlev : F'.2.levels = l :: ls := by rw [hF]; exact hl
    have hun : F'.2.undoUpper = if fresh then b.undoUpper ++ [v] else b.undoUpper := by rw [hF]
    have hin : F'.2.inUdiff = if -udF (vs, b) v = 0 then b.inUdiff ++ [v] else b.inUdiff := by
      rw [hF]; simp only [udF, neg_eq_zero]
    rw [hlev, hun, hin, hcut'.1, e1, e5, e3, update_neg, update_neg, ← elo, ← est]
    have e7 : -(udF (vs, b) v + (x - upF (vs, b) v)) = -udF (vs, b) v + (-x - -upF (vs, b) v) := by omega
    rw [e7]
    exact ht
  have hlow : SideInv (cuts Lvl.undoLowerOff F'.2.levels F'.2.undoLower) (loF F') (ldF F') (lstF F') F'.2.inLdiff := by
    rw [e2, e4, e6, hF]; exact h.low
  subst hF
  refine ⟨?_, ?_, ?_, h.dec, h.cutL, ?_, h.cutI, h.cutR, hlow, hupp, h.inac, h.inac', ?_, h.todo, h.rngW, ?_, h.rngI, h.rngT⟩
  · simpa using h.lenW
  · simpa using h.lenL
  · simpa using h.lenU
  · simp only; rw [hl]; exact hcut'.2
  · intro n c hc ha
    exact (h.track n c hc ha).same hV (SameF.refl c) (SameC.refl c)
  · intro r hr; simpa using h.rngR r hr

/-- Informing constraints about the change of a bound, parts for both kinds of bounds. -/
theorem deliver_frame (h : BI (vs, b)) {l : Lvl} {ls : List Lvl} (hl : b.levels = l :: ls) {d : Int} {kept : List (Int × Nat)} {added : List (Nat × Int × Nat)}
    (he : WatchEff l.level v d (b.watches.getD v []) b kept b' added) (hvl : v < vs.length) {up : Bool} (hd : if up then d < 0 else 0 < d)
    {inL inU : List Nat} {lD uD : List Int} {F' : List VarState × Book}
    (hF : F' = (vs, { b' with watches := b'.watches.set v kept, ldiff := lD, udiff := uD, inLdiff := inL, inUdiff := inU }))
    (hlD : lD.length = vs.length) (huD : uD.length = vs.length)
    (hlow : SideInv (cuts Lvl.undoLowerOff b.levels b.undoLower) (loF F') (ldF F') (lstF F') inL)
    (hupp : SideInv (cuts Lvl.undoUpperOff b.levels b.undoUpper) (fun v => -upF F' v) (fun v => -udF F' v) (ustF F') inU)
    (hs : Shift up v d (viewF (vs, b)).dl (viewF (vs, b)).du (viewF F').dl (viewF F').du)
    (hk : ∀ w ∈ kept, w ∈ b.watches.getD v []) (ha : ∀ r ∈ added, (r.2) ∈ b.watches.getD v []) : BI F' := by
  have hlt := h.below hl
  have hb := he.rest
  have hcutR := h.cutR
  simp only at hcutR
  rw [hl] at hcutR
  have hap := cuts_append (x := added) hcutR
  have q1 : F'.2.levels = b.levels := by rw [hF, hb]
  have q2 : F'.2.removed = b.removed ++ added := by rw [hF, hb]
  have q3 : F'.2.watches = b.watches.set v kept := by rw [hF, hb]
  have q4 : F'.2.cs = b'.cs := by rw [hF]
  have q5 : F'.1 = vs := by rw [hF]
  have q6 : F'.2.inactive = b.inactive := by rw [hF, hb]
  have q7 : F'.2.todo = b'.todo := by rw [hF]
  have q8 : F'.2.undoLower = b.undoLower := by rw [hF, hb]
  have q9 : F'.2.undoUpper = b.undoUpper := by rw [hF, hb]
  have q10 : F'.2.ldiff = lD := by rw [hF]
  have q11 : F'.2.udiff = uD := by rw [hF]
  have q12 : F'.2.inLdiff = inL := by rw [hF]
  have q13 : F'.2.inUdiff = inU := by rw [hF]
  have hwt : wtF F' = Function.update (wtF (vs, b)) v kept := by
    unfold wtF; rw [q3]
    exact getD_set (by rw [h.lenW]; exact hvl)
  have halF : alF F' = alF (vs, b) := by rw [hF]; rfl
  have hauF : auF F' = auF (vs, b) := by rw [hF]; rfl
  have hcs : ∀ {n : Nat} {c' : CState}, b'.cs[n]? = some c' → ∃ c, b.cs[n]? = some c ∧ SameF c c' := by
    intro n c' hc'
    obtain ⟨c, hc⟩ := getElem?_of_len he.len hc'
    obtain ⟨c2, h1, h2, -⟩ := he.cs n c hc
    rw [hc'] at h1; injection h1 with h1; subst h1
    exact ⟨c, hc, h2⟩
  refine ⟨?_, ?_, ?_, ?_, ?_, ?_, ?_, ?_, ?_, ?_, ?_, ?_, ?_, ?_, ?_, ?_, ?_, ?_⟩
  · rw [q3, q5, List.length_set]; exact h.lenW
  · rw [q10, q5, hlD]
  · rw [q11, q5, huD]
  · rw [q1]; exact h.dec
  · rw [q1, q8]; exact h.cutL
  · rw [q1, q9]; exact h.cutU
  · rw [q1, q6]; exact h.cutI
  · rw [q1, q2, hl]; exact hap.2
  · rw [q1, q8, q12]; exact hlow
  · rw [q1, q9, q13]; exact hupp
  · rw [q1, q6, q4]
    intro s hs h0 n hn c' hc'
    obtain ⟨c, hc, hf⟩ := hcs hc'
    rw [hf.inactive]; exact h.inac s hs h0 n hn c hc
  · rw [q1, q6, q4]
    intro n c' hc' h0
    obtain ⟨c, hc, hf⟩ := hcs hc'
    rw [hf.inactive] at h0 ⊢; exact h.inac' n c hc h0
  · rw [q4]
    intro n c' hc' hal
    obtain ⟨c, hc, hf⟩ := hcs hc'
    obtain ⟨c2, h1, h2, h3, h4⟩ := he.cs n c hc
    rw [hc'] at h1; injection h1 with h1; subst h1
    have ht := h.track n c hc (by rw [← hf.alive]; exact hal)
    refine Tracked.deliver (V := viewF (vs, b)) (V' := viewF F') (k := l.level) (rs := b.removed.drop l.removedOff) (added := added)
      (ss := cuts Lvl.removedOff ls (b.removed.take l.removedOff)) (v := v) (d := d) (kept := kept) (up := up) (c := c) ?_ (below_cuts hlt) ?_ hwt hs halF hauF
      he.var hd hf h3 h4 ht
    · simp only [viewF]; rw [hl]; rfl
    · simp only [viewF]; rw [q1, q2, hl, hap.1]
  · rw [q7, q4, q1]
    intro n hn c' hc' t ht
    obtain ⟨c, hc, hf⟩ := hcs hc'
    rw [hf.removableAt]
    rcases he.todo n hn with hn | ⟨c2, hc2, hi⟩
    · exact h.todo n hn c hc t ht
    · rw [hc] at hc2; injection hc2 with hc2; subst hc2
      unfold CState.removableAt CState.markedInactive; simp [hi]
  · rw [hwt, q4, he.len]
    intro w x hx
    by_cases hw : w = v
    · subst hw; rw [Function.update_self] at hx; exact h.rngW w x (hk x hx)
    · rw [Function.update_of_ne hw] at hx; exact h.rngW w x hx
  · rw [q2, q4, q5, he.len]
    intro r hr
    rcases List.mem_append.mp hr with hr | hr
    · exact h.rngR r hr
    · exact ⟨by rw [he.var r hr]; exact hvl, h.rngW v r.2 (ha r hr)⟩
  · rw [q6, q4, he.len]; exact h.rngI
  · rw [q7, q4, he.len]
    intro n hn
    rcases he.todo n hn with hn | ⟨c, hc, -⟩
    · exact h.rngT n hn
    · exact (List.getElem?_eq_some_iff.mp hc).1

/-- The watches after informing constraints are among the ones before. -/
theorem updateWatches_sub {level var : Nat} {diff : Int} : ∀ {ws : List (Int × Nat)} {b : Book} {p : List (Int × Nat) × Book},
    Book.updateWatches level var diff ws b = .ok p → (∀ w ∈ p.1, w ∈ ws) ∧ ∃ added, p.2.removed = b.removed ++ added ∧ ∀ r ∈ added, r.2 ∈ ws
  | [], b, p, h => by
    injection h with h; subst h
    exact ⟨by simp, [], by simp, by simp⟩
  | (i, n) :: ws, b, p, h => by
    unfold Book.updateWatches at h
    cases hc : b.cs[n]? with
    | none => rw [hc] at h; cases h
    | some c =>
      rw [hc] at h
      dsimp only at h
      by_cases hr : c.removableAt level = true
      · rw [if_pos hr] at h
        obtain ⟨h1, added, h2, h3⟩ := updateWatches_sub h
        refine ⟨fun w hw => List.mem_cons_of_mem _ (h1 w hw), (var, i, n) :: added, by rw [h2]; simp, ?_⟩
        intro r hr'
        rcases List.mem_cons.mp hr' with rfl | hr'
        · exact List.mem_cons_self ..
        · exact List.mem_cons_of_mem _ (h3 r hr')
      · rw [if_neg hr] at h
        cases hu : c.update i diff with
        | error e => rw [hu] at h; cases h
        | ok r =>
        rw [hu] at h
        simp only [bind, Except.bind] at h
        generalize hbb : (if r.1 = true then ({ b with cs := b.cs.set n r.2 } : Book).markTodo n else { b with cs := b.cs.set n r.2 }) = bb at h
        have hme : MarkEff { b with cs := b.cs.set n r.2 } bb := by
          rw [← hbb]; split_ifs
          · exact markTodo_eff _ _
          · exact MarkEff.refl _
        cases hw : Book.updateWatches level var diff ws bb with
        | error e => rw [hw] at h; cases h
        | ok q =>
        rw [hw] at h
        injection h with h; subst h
        obtain ⟨h1, added, h2, h3⟩ := updateWatches_sub hw
        refine ⟨?_, added, ?_, fun r hr => List.mem_cons_of_mem _ (h3 r hr)⟩
        · intro w hw
          rcases List.mem_cons.mp hw with rfl | hw
          · exact List.mem_cons_self ..
          · exact List.mem_cons_of_mem _ (h1 w hw)
        · rw [h2, hme.rest]

end Clingcon
