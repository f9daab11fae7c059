import Verif.Proof.BookStep

/-! Informing constraints about changed bounds and opening levels. -/
set_option linter.unusedSimpArgs false
namespace Clingcon
open Spec VarState

variable {vs : List VarState} {b b' : Book} {v : Nat} {y : VarState}

theorem WatchEff.queues {level var : Nat} {diff : Int} {ws : List (Int × Nat)} {kept : List (Int × Nat)} {added : List (Nat × Int × Nat)}
    (h : WatchEff level var diff ws b kept b' added) (inL inU : List Nat) :
    WatchEff level var diff ws { b with inLdiff := inL, inUdiff := inU } kept { b' with inLdiff := inL, inUdiff := inU } added := by
  refine ⟨?_, h.len, h.cs, h.var, h.todo⟩
  have := h.rest
  rw [this]

theorem updateConstraints_ok {level var : Nat} {d : Int} (h : Book.updateConstraints level var d b = .ok b') :
    ∃ (p : List (Int × Nat) × Book) (added : List (Nat × Int × Nat)), WatchEff level var d (b.watches.getD var []) b p.1 p.2 added ∧ (∀ w ∈ p.1, w ∈ b.watches.getD var []) ∧
      (∀ r ∈ added, r.2 ∈ b.watches.getD var []) ∧ b' = { p.2 with watches := p.2.watches.set var p.1 } := by
  unfold Book.updateConstraints at h
  cases hw : b.watches[var]? with
  | none => rw [hw] at h; cases h
  | some ws =>
    rw [hw] at h
    simp only [bind, Except.bind] at h
    have hws : b.watches.getD var [] = ws := by rw [List.getD_eq_getElem?_getD, hw]; rfl
    cases hu : Book.updateWatches level var d ws b with
    | error e => rw [hu] at h; cases h
    | ok p =>
      rw [hu] at h
      injection h with h
      obtain ⟨added, he⟩ := updateWatches_eff hu
      obtain ⟨h1, added', h2, h3⟩ := updateWatches_sub hu
      have : added' = added := by
        have h4 : p.2.removed = b.removed ++ added := by rw [he.rest]
        rw [h2] at h4; exact List.append_cancel_left h4
      subst this
      exact ⟨p, added', by rw [hws]; exact he, by rw [hws]; exact h1, by rw [hws]; exact h3, h.symm⟩

/-- Informing constraints about all changed upper bounds. -/
theorem BI.uppers : ∀ {us : List Nat} {b b' : Book} {l : Lvl} {ls : List Lvl}, b.levels = l :: ls → BI (vs, { b with inUdiff := us }) →
    Book.updateUppers l.level us b = .ok b' → BI (vs, b') ∧ b'.inUdiff = [] ∧ b'.inLdiff = b.inLdiff ∧ b'.levels = b.levels
  | [], b, b', l, ls, hl, hb, h => by
    injection h with h; subst h
    exact ⟨hb, rfl, rfl, rfl⟩
  | v :: us, b, b', l, ls, hl, hb, h => by
    unfold Book.updateUppers at h
    simp only [bind, Except.bind] at h
    cases hu : Book.updateConstraints l.level v (b.udiff.getD v 0) b with
    | error e => rw [hu] at h; cases h
    | ok b1 =>
    rw [hu] at h
    simp only at h
    obtain ⟨p, added, he, hk, ha, rfl⟩ := updateConstraints_ok hu
    have hr := he.rest
    have hside := hb.upp
    simp only at hside
    have hne : udF (vs, b) v ≠ 0 := by
      have := (hside.chgd v).mp (List.mem_cons_self ..)
      intro hz; apply this; simp only [udF] at hz ⊢; omega
    have hneg : udF (vs, b) v < 0 := by
      have := hside.nonneg v
      have e : udF (vs, ({ b with inUdiff := v :: us } : Book)) v = udF (vs, b) v := rfl
      rw [e] at this; omega
    have hvl : v < vs.length := by
      have := hb.lenU
      simp only at this
      rw [← this]
      by_contra hge
      apply hne
      unfold udF
      simp only
      rw [List.getD_eq_getElem?_getD, List.getElem?_eq_none (by omega)]; rfl
    have hdel := hside.delivered
    have hF : BI (vs, { p.2 with watches := p.2.watches.set v p.1, ldiff := b.ldiff, udiff := b.udiff.set v 0, inLdiff := b.inLdiff, inUdiff := us }) := by
      refine deliver_frame (b := { b with inLdiff := b.inLdiff, inUdiff := v :: us }) (up := true) (d := b.udiff.getD v 0) hb hl
        (he.queues b.inLdiff (v :: us)) hvl (by rw [if_pos rfl]; exact hneg) rfl hb.lenL (by simpa using hb.lenU) hb.low ?_ ?_ hk ha
      · have e : (fun w => -udF (vs, { p.2 with watches := p.2.watches.set v p.1, ldiff := b.ldiff, udiff := b.udiff.set v 0, inLdiff := b.inLdiff, inUdiff := us }) w)
            = Function.update (fun w => -udF (vs, { b with inUdiff := v :: us }) w) v 0 := by
          have e0 : udF (vs, { p.2 with watches := p.2.watches.set v p.1, ldiff := b.ldiff, udiff := b.udiff.set v 0, inLdiff := b.inLdiff, inUdiff := us })
              = Function.update (udF (vs, { b with inUdiff := v :: us })) v 0 := getD_set (by have := hb.lenU; simp only at this; omega)
          rw [e0, update_neg]; rfl
        rw [← e] at hdel; exact hdel
      · refine ⟨rfl, ?_⟩
        funext w
        have e0 : udF (vs, { p.2 with watches := p.2.watches.set v p.1, ldiff := b.ldiff, udiff := b.udiff.set v 0, inLdiff := b.inLdiff, inUdiff := us })
            = Function.update (udF (vs, { b with inUdiff := v :: us })) v 0 := getD_set (by have := hb.lenU; simp only at this; omega)
        simp only [viewF, if_true]
        rw [e0]
        by_cases hw : w = v
        · subst hw; simp only [Function.update_self, udF, upF]; omega
        · rw [Function.update_of_ne hw, Function.update_of_ne hw]; rfl
    have e1 : p.2.ldiff = b.ldiff := by rw [hr]
    have e2 : p.2.udiff = b.udiff := by rw [hr]
    have e3 : p.2.inLdiff = b.inLdiff := by rw [hr]
    have e4 : p.2.levels = b.levels := by rw [hr]
    have := BI.uppers (us := us) (by simp only; rw [e4]; exact hl) (by simp only; rw [e2]; rw [← e1, ← e3] at hF; exact hF) h
    obtain ⟨i1, i2, i3, i4⟩ := this
    exact ⟨i1, i2, by rw [i3]; exact e3, by rw [i4]; exact e4⟩

/-- Informing constraints about all changed lower bounds. -/
theorem BI.lowers : ∀ {us : List Nat} {b b' : Book} {l : Lvl} {ls : List Lvl}, b.levels = l :: ls → BI (vs, { b with inLdiff := us }) →
    Book.updateLowers l.level us b = .ok b' → BI (vs, b') ∧ b'.inLdiff = [] ∧ b'.inUdiff = b.inUdiff ∧ b'.levels = b.levels
  | [], b, b', l, ls, hl, hb, h => by
    injection h with h; subst h
    exact ⟨hb, rfl, rfl, rfl⟩
  | v :: us, b, b', l, ls, hl, hb, h => by
    unfold Book.updateLowers at h
    simp only [bind, Except.bind] at h
    cases hu : Book.updateConstraints l.level v (b.ldiff.getD v 0) b with
    | error e => rw [hu] at h; cases h
    | ok b1 =>
    rw [hu] at h
    simp only at h
    obtain ⟨p, added, he, hk, ha, rfl⟩ := updateConstraints_ok hu
    have hr := he.rest
    have hside := hb.low
    simp only at hside
    have hne : ldF (vs, b) v ≠ 0 := (hside.chgd v).mp (List.mem_cons_self ..)
    have hpos : 0 < ldF (vs, b) v := by
      have := hside.nonneg v
      have e : ldF (vs, ({ b with inLdiff := v :: us } : Book)) v = ldF (vs, b) v := rfl
      rw [e] at this; omega
    have hvl : v < vs.length := by
      have := hb.lenL
      simp only at this
      rw [← this]
      by_contra hge
      apply hne
      unfold ldF
      simp only
      rw [List.getD_eq_getElem?_getD, List.getElem?_eq_none (by omega)]; rfl
    have hdel := hside.delivered
    have hF : BI (vs, { p.2 with watches := p.2.watches.set v p.1, ldiff := b.ldiff.set v 0, udiff := b.udiff, inLdiff := us, inUdiff := b.inUdiff }) := by
      have e0 : ldF (vs, { p.2 with watches := p.2.watches.set v p.1, ldiff := b.ldiff.set v 0, udiff := b.udiff, inLdiff := us, inUdiff := b.inUdiff })
          = Function.update (ldF (vs, { b with inLdiff := v :: us })) v 0 := getD_set (by have := hb.lenL; simp only at this; omega)
      refine deliver_frame (b := { b with inLdiff := v :: us, inUdiff := b.inUdiff }) (up := false) (d := b.ldiff.getD v 0) hb hl
        (he.queues (v :: us) b.inUdiff) hvl (by rw [if_neg (by simp)]; exact hpos) rfl (by simpa using hb.lenL) hb.lenU ?_ hb.upp ?_ hk ha
      · rw [e0]; exact hdel
      · refine ⟨?_, rfl⟩
        funext w
        simp only [viewF, Bool.false_eq_true, if_false]
        rw [e0]
        by_cases hw : w = v
        · subst hw; simp only [Function.update_self, ldF, loF]; omega
        · rw [Function.update_of_ne hw, Function.update_of_ne hw]; rfl
    have e1 : p.2.ldiff = b.ldiff := by rw [hr]
    have e2 : p.2.udiff = b.udiff := by rw [hr]
    have e3 : p.2.inUdiff = b.inUdiff := by rw [hr]
    have e4 : p.2.levels = b.levels := by rw [hr]
    have := BI.lowers (us := us) (by simp only; rw [e4]; exact hl) (by simp only; rw [e1]; rw [← e2, ← e3] at hF; exact hF) h
    obtain ⟨i1, i2, i3, i4⟩ := this
    exact ⟨i1, i2, by rw [i3]; exact e3, by rw [i4]; exact e4⟩

/-- No changes are pending. -/
structure Still (F : List VarState × Book) : Prop where
  low : F.2.inLdiff = []
  upp : F.2.inUdiff = []

theorem BI.quiet {F : List VarState × Book} (h : BI F) (hq : Still F) : ldF F = (fun _ => 0) ∧ udF F = (fun _ => 0) := by
  constructor
  · funext v
    by_contra hne
    have := (h.low.chgd v).mpr hne
    rw [hq.low] at this; cases this
  · funext v
    by_contra hne
    have := (h.upp.chgd v).mpr (by simpa using hne)
    rw [hq.upp] at this; cases this

/-- The bounds before levels above the current one are the bounds. -/
theorem BI.above {F : List VarState × Book} (h : BI F) {k : Nat} (hk : ∀ l ∈ F.2.levels, l.level < k) : alF F k = loF F ∧ auF F k = upF F := by
  constructor
  · funext v
    unfold alF
    apply atLevel_empty
    intro p hp
    obtain ⟨-, s, hs, he⟩ := h.low.opened v p hp
    obtain ⟨l, hl, he2⟩ := cuts_mem_levels hs
    rw [← he, ← he2]; exact hk l hl
  · funext v
    unfold auF
    rw [atLevel_empty, neg_neg]
    intro p hp
    obtain ⟨-, s, hs, he⟩ := h.upp.opened v p hp
    obtain ⟨l, hl, he2⟩ := cuts_mem_levels hs
    rw [← he, ← he2]; exact hk l hl

/-- Opening a level. -/
theorem BI.push (h : BI (vs, b)) (hq : Still (vs, b)) (ht : ∀ n ∈ b.todo, ∀ c, b.cs[n]? = some c → c.inactive = 0) {k : Nat}
    (hk : ∀ l ∈ b.levels, l.level < k) : BI (vs, { b with levels := ⟨k, b.undoLower.length, b.undoUpper.length, b.inactive.length, b.removed.length⟩ :: b.levels }) := by
  have hlo : ∀ {α : Type} {off : Lvl → Nat} {u : List α}, ∀ s ∈ cuts off b.levels u, s.1 < k := by
    intro α off u s hs
    obtain ⟨l, hl, he⟩ := cuts_mem_levels hs
    rw [← he]; exact hk l hl
  obtain ⟨ab1, ab2⟩ := h.above (k := k) hk
  obtain ⟨qz1, qz2⟩ := h.quiet hq
  set l : Lvl := ⟨k, b.undoLower.length, b.undoUpper.length, b.inactive.length, b.removed.length⟩ with hl
  have c1 := cuts_push (l := l) (off := Lvl.undoLowerOff) (u := b.undoLower) rfl h.cutL
  have c2 := cuts_push (l := l) (off := Lvl.undoUpperOff) (u := b.undoUpper) rfl h.cutU
  have c3 := cuts_push (l := l) (off := Lvl.inactiveOff) (u := b.inactive) rfl h.cutI
  have c4 := cuts_push (l := l) (off := Lvl.removedOff) (u := b.removed) rfl h.cutR
  have q1 := hq.low
  have q2 := hq.upp
  simp only at q1 q2
  refine ⟨h.lenW, h.lenL, h.lenU, ?_, c1.2, c2.2, c3.2, c4.2, ?_, ?_, ?_, ?_, ?_, ?_, h.rngW, h.rngR, h.rngI, h.rngT⟩
  · rw [List.map_cons, List.pairwise_cons]
    refine ⟨?_, h.dec⟩
    intro j hj
    obtain ⟨t, ht, rfl⟩ := List.mem_map.mp hj
    exact hk t ht
  · simp only
    rw [c1.1, q1]
    have := h.low
    simp only at this
    rw [q1] at this
    exact this.push hlo
  · simp only
    rw [c2.1, q2]
    have := h.upp
    simp only at this
    rw [q2] at this
    exact this.push hlo
  · simp only
    rw [c3.1]
    intro s hs h0 n hn c hc
    rcases List.mem_cons.mp hs with rfl | hs
    · cases hn
    · exact h.inac s hs h0 n hn c hc
  · simp only
    rw [c3.1]
    intro n c hc h0
    obtain ⟨s, hs, h1⟩ := h.inac' n c hc h0
    exact ⟨s, List.mem_cons_of_mem _ hs, h1⟩
  · intro n c hc ha
    have := h.track n c hc ha
    refine Tracked.push (V := viewF (vs, b)) (k := k) ?_ (fun t ht => hlo t ht) rfl rfl rfl rfl rfl ?_ this
    · exact c4.1
    · simp only [viewF]
      rw [ab1, ab2, qz1, qz2]
      constructor <;> funext v <;> simp
  · intro n hn c hc t htm
    have := ht n hn c hc
    unfold CState.removableAt CState.markedInactive; simp [this]

end Clingcon
