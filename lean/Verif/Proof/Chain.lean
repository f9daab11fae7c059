import Verif.Spec.Chain
import Verif.Proof.SafeSum
import Verif.Proof.GivenStep
import Verif.Proof.GivenFacts

/-! Propagation of order literals to their neighbours. -/
namespace Clingcon
open Clingcon.Spec

variable {cc : CC} {W W' : World}

/-- The tables, and what is known about them, are as before, and the log has grown. -/
structure SameOrd (W W' : World) : Prop where
  ti : TI W'
  ord : ∀ v k l, OrdLit W' v k l ↔ OrdLit W v k l
  log : W.log <:+ W'.log
  fm : W'.factmap = W.factmap

theorem SameOrd.refl (h : TI W) : SameOrd W W := ⟨h, fun _ _ _ => Iff.rfl, List.suffix_refl _, rfl⟩
theorem SameOrd.trans {W1 : World} (h : SameOrd W W1) (h' : SameOrd W1 W') : SameOrd W W' :=
  ⟨h'.ti, fun v k l => (h'.ord v k l).trans (h.ord v k l), h.log.trans h'.log, h'.fm.trans h.fm⟩

theorem propagateVariables_suffix {s : Int} : ∀ {ls : List Int} {m : Int} {W W' : World} {r : Bool}, propagateVariables cc s m ls W = .ok (r, W') →
    W.log <:+ W'.log
  | [], m, W, W', r, h => by
    obtain ⟨-, rfl⟩ := pure_iff.mp h
    exact List.suffix_refl _
  | l :: ls, m, W, W', r, h => by
    unfold propagateVariables at h
    simp only [smok] at h
    obtain ⟨b, W1, ⟨rfl, rfl⟩, h⟩ := h
    rcases h with ⟨-, -, rfl⟩ | ⟨-, b, W2, ⟨rfl, rfl⟩, h⟩
    · exact List.suffix_refl _
    rcases h with ⟨-, -, rfl⟩ | ⟨-, b, W2, ⟨rfl, rfl⟩, h⟩
    · exact List.suffix_cons _ _
    rcases h with ⟨-, h⟩ | ⟨-, h⟩ <;> exact (List.suffix_cons _ _).trans (propagateVariables_suffix h)

/-- After traversing literals, the first one is true. -/
theorem propagateVariables_first (hr : Responsive cc) (hc : cc.level ≠ 0) {s : Int} {l : Int} {ls : List Int} {m : Int} (h0 : m ≠ 0)
    (h : propagateVariables cc s m (l :: ls) W = .ok (true, W')) (hm : cc.isTrue W.log m = true) : cc.isTrue W'.log (s * l) = true := by
  unfold propagateVariables at h
  simp only [smok] at h
  obtain ⟨b, W1, ⟨rfl, rfl⟩, h⟩ := h
  rcases h with ⟨ht, -, rfl⟩ | ⟨-, b, W2, ⟨hb, rfl⟩, h⟩
  · exact ht
  rcases h with ⟨-, h, -⟩ | ⟨ha, n, W2, ⟨rfl, rfl⟩, h⟩
  · cases h
  have key : cc.isTrue (.clause [-m, s * l] :: W1.log) (s * l) = true := by
    refine unit_clause hr hc (by rw [← hb]; simpa using ha) (by simp) (fun q hq hn => ?_)
    rcases List.mem_cons.mp hq with rfl | hq
    · rw [isFalse_neg h0]; exact hm
    · exact absurd (List.mem_singleton.mp hq) hn
  rcases h with ⟨-, h⟩ | ⟨-, h⟩ <;> exact isTrue_suffix hr.mono (propagateVariables_suffix h) key

theorem updateUpper_log {lvl v : Nat} {x : Int} {u : Unit} (h : updateUpper lvl v x W = .ok (u, W')) : W'.log = W.log := by
  unfold updateUpper at h
  simp only [smok] at h
  obtain ⟨vs, W1, ⟨hv, rfl⟩, _, W2, h2, _, W3, ⟨ha, rfl⟩, _, W4, rfl, rfl⟩ := h
  rcases h2 with ⟨-, rfl⟩ | ⟨-, rfl⟩ <;> rfl

theorem updateLower_log {lvl v : Nat} {x : Int} {u : Unit} (h : updateLower lvl v x W = .ok (u, W')) : W'.log = W.log := by
  unfold updateLower at h
  simp only [smok] at h
  obtain ⟨vs, W1, ⟨hv, rfl⟩, _, W2, h2, _, W3, ⟨ha, rfl⟩, _, W4, rfl, rfl⟩ := h
  rcases h2 with ⟨-, rfl⟩ | ⟨-, rfl⟩ <;> rfl

theorem updateUpperLit_next (hi : TI W) (hr : Responsive cc) (hc : cc.level ≠ 0) {lvl : Nat} {l : Int} (hl : cc.isTrue W.log l = true)
    (hv : (entryAt W.litmap l).valid l = true)
    (h : updateUpperLit cc lvl (entryAt W.litmap l).var l (entryAt W.litmap l).value (entryAt W.litmap l).succ W = .ok (true, W')) :
    SameOrd W W' ∧ NextTrue cc W' (entryAt W.litmap l).var (entryAt W.litmap l).value := by
  have h0 : l ≠ 0 := hi.nz (hi.ord hv)
  obtain ⟨-, e1, e2, -⟩ := entry_valid hv
  obtain ⟨-, vs0, g0, -, hsucc⟩ := hi.link _ _ e1 e2
  generalize hE : entryAt W.litmap l = E at *
  unfold updateUpperLit at h
  rw [bind_iff] at h
  obtain ⟨vs, W1, h1, h⟩ := h
  obtain ⟨hvs, rfl⟩ := getVar_iff.mp h1
  split_ifs at h with hlow
  · rw [bind_iff] at h
    obtain ⟨m, W2, h2, h⟩ := h
    simp only [smok] at h
    obtain ⟨b, W3, ⟨-, rfl⟩, _, W4, h4, h5, rfl⟩ := h
    cases h5
  · rw [bind_iff] at h
    obtain ⟨_, W2, h2, h⟩ := h
    have f2 : SameOrd W1 W2 ∧ W2.log = W1.log := by
      rcases whenS_iff.mp h2 with ⟨-, h2⟩ | ⟨-, rfl⟩
      · obtain ⟨-, -, e3, e4⟩ := updateUpper_ord h2
        have el := updateUpper_log h2
        exact ⟨⟨hi.ti_updateUpper h2, e4, by rw [el], e3⟩, el⟩
      · exact ⟨SameOrd.refl hi, rfl⟩
    obtain ⟨s2, el⟩ := f2
    simp only [smok] at h
    obtain ⟨vs', W3, ⟨hvs', rfl⟩, _, W4, ⟨-, rfl⟩, b, W5, ⟨rfl, rfl⟩, h⟩ := h
    have hmem : ∀ k m, OrdLit W1 E.var k m ↔ (k, m) ∈ vs0.with := fun k m =>
      ⟨fun ⟨us, a, b⟩ => by rw [g0] at a; injection a with a; subst a; exact b, fun a => ⟨vs0, g0, a⟩⟩
    rcases h with ⟨ht, -, rfl⟩ | ⟨-, h⟩
    · refine ⟨s2, fun k' l' ho hk hmin => ?_⟩
      rw [s2.ord, hmem] at ho
      rcases hsucc with ⟨j, j1, j2, j3⟩ | ⟨-, j⟩
      · have a := j3 k' l' ho hk
        have b := hmin j E.succ (by rw [s2.ord, hmem]; exact j1) j2
        have : k' = j := by omega
        subst this
        rw [with_unique (hi.wf _ _ g0) ho j1]
        exact ht
      · exact absurd hk (j _ _ ho)
    · have hsfx := propagateVariables_suffix h
      obtain ⟨log, rfl⟩ := propagateVariables_log h
      have s3 : SameOrd W5 { W5 with log := log } := ⟨s2.ti.other rfl rfl rfl, fun _ _ _ => Iff.rfl, hsfx, rfl⟩
      refine ⟨s2.trans s3, fun k' l' ho hk hmin => ?_⟩
      obtain ⟨us, a, b⟩ := ho
      have a : W5.vars[E.var]? = some us := a
      rw [hvs'] at a; injection a with a; subst a
      obtain ⟨g1, g2⟩ := VarState.withGt_spec (s2.ti.wf _ _ hvs') E.value
      have hin := (g2 k' l').mpr ⟨hk, b⟩
      cases hw : vs'.withGt E.value with
      | nil => rw [hw] at hin; exact (List.not_mem_nil hin).elim
      | cons p ps =>
        rw [hw] at h g1 hin g2
        have hp : p = (k', l') := by
          obtain ⟨q1, q2⟩ := (g2 p.1 p.2).mp List.mem_cons_self
          have := hmin p.1 p.2 ⟨vs', hvs', q2⟩ q1
          rcases List.mem_cons.mp hin with e | e
          · exact e.symm
          · have := (List.pairwise_cons.mp g1).1 _ e
            dsimp only at this
            omega
        rw [List.map_cons] at h
        have := propagateVariables_first hr hc h0 h (by rw [el]; exact hl)
        rw [hp, Int.one_mul] at this
        exact this

theorem updateLowerLit_prev (hi : TI W) (hr : Responsive cc) (hc : cc.level ≠ 0) {lvl : Nat} {l : Int} (hl : cc.isTrue W.log l = true)
    (hv : (entryAt W.litmap (-l)).valid (-l) = true)
    (h : updateLowerLit cc lvl (entryAt W.litmap (-l)).var l (entryAt W.litmap (-l)).value (entryAt W.litmap (-l)).prev W = .ok (true, W')) :
    SameOrd W W' ∧ PrevFalse cc W' (entryAt W.litmap (-l)).var (entryAt W.litmap (-l)).value := by
  have h0 : l ≠ 0 := fun e => hi.nz (hi.ord hv) (by omega)
  obtain ⟨-, e1, e2, -⟩ := entry_valid hv
  obtain ⟨-, vs0, g0, hsucc, -⟩ := hi.link _ _ e1 e2
  generalize hE : entryAt W.litmap (-l) = E at *
  unfold updateLowerLit at h
  rw [bind_iff] at h
  obtain ⟨vs, W1, h1, h⟩ := h
  obtain ⟨hvs, rfl⟩ := getVar_iff.mp h1
  split_ifs at h with hlow
  · rw [bind_iff] at h
    obtain ⟨m, W2, h2, h⟩ := h
    simp only [smok] at h
    obtain ⟨b, W3, ⟨-, rfl⟩, _, W4, h4, h5, rfl⟩ := h
    cases h5
  · rw [bind_iff] at h
    obtain ⟨_, W2, h2, h⟩ := h
    have f2 : SameOrd W1 W2 ∧ W2.log = W1.log := by
      rcases whenS_iff.mp h2 with ⟨-, h2⟩ | ⟨-, rfl⟩
      · obtain ⟨-, -, e3, e4⟩ := updateLower_ord h2
        have el := updateLower_log h2
        exact ⟨⟨hi.ti_updateLower h2, e4, by rw [el], e3⟩, el⟩
      · exact ⟨SameOrd.refl hi, rfl⟩
    obtain ⟨s2, el⟩ := f2
    simp only [smok] at h
    obtain ⟨vs', W3, ⟨hvs', rfl⟩, _, W4, ⟨-, rfl⟩, b, W5, ⟨rfl, rfl⟩, h⟩ := h
    have hmem : ∀ k m, OrdLit W1 E.var k m ↔ (k, m) ∈ vs0.with := fun k m =>
      ⟨fun ⟨us, a, b⟩ => by rw [g0] at a; injection a with a; subst a; exact b, fun a => ⟨vs0, g0, a⟩⟩
    rcases h with ⟨ht, -, rfl⟩ | ⟨-, h⟩
    · refine ⟨s2, fun k' l' ho hk hmin => ?_⟩
      rw [s2.ord, hmem] at ho
      rcases hsucc with ⟨j, j1, j2, j3⟩ | ⟨-, j⟩
      · have a := j3 k' l' ho hk
        have b := hmin j E.prev (by rw [s2.ord, hmem]; exact j1) j2
        have : k' = j := by omega
        subst this
        rw [with_unique (hi.wf _ _ g0) ho j1]
        rw [← isTrue_neg (hi.nz ⟨vs0, g0, j1⟩)]
        exact ht
      · exact absurd hk (j _ _ ho)
    · have hsfx := propagateVariables_suffix h
      obtain ⟨log, rfl⟩ := propagateVariables_log h
      have s3 : SameOrd W5 { W5 with log := log } := ⟨s2.ti.other rfl rfl rfl, fun _ _ _ => Iff.rfl, hsfx, rfl⟩
      refine ⟨s2.trans s3, fun k' l' ho hk hmin => ?_⟩
      obtain ⟨us, a, b⟩ := ho
      have a : W5.vars[E.var]? = some us := a
      rw [hvs'] at a; injection a with a; subst a
      obtain ⟨g1, g2⟩ := VarState.withLt_spec (s2.ti.wf _ _ hvs') E.value
      have hin := (g2 k' l').mpr ⟨hk, b⟩
      cases hw : vs'.withLt E.value with
      | nil => rw [hw] at hin; exact (List.not_mem_nil hin).elim
      | cons p ps =>
        rw [hw] at h g1 hin g2
        have hp : p = (k', l') := by
          obtain ⟨q1, q2⟩ := (g2 p.1 p.2).mp List.mem_cons_self
          have := hmin p.1 p.2 ⟨vs', hvs', q2⟩ q1
          rcases List.mem_cons.mp hin with e | e
          · exact e.symm
          · have := (List.pairwise_cons.mp g1).1 _ e
            dsimp only at this
            omega
        rw [List.map_cons] at h
        have := propagateVariables_first hr hc h0 h (by rw [el]; exact hl)
        rw [hp, show (-1 : Int) * l' = -l' by omega, isTrue_neg (s2.ti.nz ⟨vs', hvs', b⟩)] at this
        exact this

theorem nextTrue_of {v : Nat} {k : Int} (h : NextTrue cc W v k) (hm : EnvMono cc) (s : SameOrd W W') : NextTrue cc W' v k := fun k' l' ho hk hmin =>
  isTrue_suffix hm s.log (h k' l' ((s.ord _ _ _).mp ho) hk (fun j m hj => hmin j m ((s.ord _ _ _).mpr hj)))

theorem prevFalse_of {v : Nat} {k : Int} (h : PrevFalse cc W v k) (hm : EnvMono cc) (s : SameOrd W W') : PrevFalse cc W' v k := fun k' l' ho hk hmin =>
  isFalse_suffix hm s.log (h k' l' ((s.ord _ _ _).mp ho) hk (fun j m hj => hmin j m ((s.ord _ _ _).mpr hj)))

theorem linked_of {l : Int} (h : Linked cc W l) (hm : EnvMono cc) (s : SameOrd W W') : Linked cc W' l :=
  ⟨fun v k ho => nextTrue_of (h.1 v k ((s.ord _ _ _).mp ho)) hm s, fun v k ho => prevFalse_of (h.2 v k ((s.ord _ _ _).mp ho)) hm s⟩

theorem updateDomain_linked (hi : TI W) (hf : ∀ v k l, OrdLit W v k l → l.natAbs ≠ 1) (hr : Responsive cc) (hc : cc.level ≠ 0) {l : Int}
    (h : updateDomain cc l W = .ok (true, W')) : SameOrd W W' ∧ Linked cc W' l := by
  have hl : cc.isTrue W.log l = true := by
    unfold updateDomain at h
    rw [bind_iff] at h
    obtain ⟨lvl, W1, h1, h⟩ := h
    obtain ⟨-, rfl⟩ := curLevel_level h1
    rw [bind_iff] at h
    obtain ⟨t, W2, h2, h⟩ := h
    obtain ⟨rfl, rfl⟩ := qTrue_iff.mp h2
    rw [bind_iff] at h
    obtain ⟨_, W3, h3, h⟩ := h
    exact (assertS_iff.mp h3).1
  rcases updateDomain_cases h with ⟨h0, -⟩ | ⟨b, W1, hl', g1, g2⟩
  · exact absurd h0 hc
  rcases g2 with ⟨-, h, -⟩ | ⟨rfl, g2⟩
  · cases h
  have k1 : SameOrd W W1 ∧ ∀ v k, OrdLit W v k l → NextTrue cc W1 v k := by
    rcases g1 with ⟨hv, g1⟩ | ⟨hv, -, rfl⟩
    · obtain ⟨a, b⟩ := updateUpperLit_next hi hr hc hl hv g1
      refine ⟨a, fun v k ho => ?_⟩
      obtain ⟨-, rfl, rfl⟩ := hi.entry ho (hf _ _ _ ho)
      exact b
    · refine ⟨SameOrd.refl hi, fun v k ho => ?_⟩
      rw [(hi.entry ho (hf _ _ _ ho)).1] at hv
      cases hv
  obtain ⟨s1, n1⟩ := k1
  have hf1 : ∀ v k l, OrdLit W1 v k l → l.natAbs ≠ 1 := fun v k l ho => hf v k l ((s1.ord _ _ _).mp ho)
  rcases g2 with ⟨hv, g2⟩ | ⟨hv, -, rfl⟩
  · obtain ⟨a, b⟩ := updateLowerLit_prev s1.ti hr hc (isTrue_suffix hr.mono s1.log hl) hv g2
    refine ⟨s1.trans a, fun v k ho => nextTrue_of (n1 v k (((s1.trans a).ord _ _ _).mp ho)) hr.mono a, fun v k ho => ?_⟩
    have ho := (a.ord _ _ _).mp ho
    obtain ⟨-, rfl, rfl⟩ := s1.ti.entry ho (hf1 _ _ _ ho)
    exact b
  · refine ⟨s1, fun v k ho => n1 v k ((s1.ord _ _ _).mp ho), fun v k ho => ?_⟩
    rw [(s1.ti.entry ho (hf1 _ _ _ ho)).1] at hv
    cases hv

theorem propagateLits_linked (hr : Responsive cc) (hc : cc.level ≠ 0) : ∀ {ls : List Int} {W W' : World}, TI W → (∀ v k l, OrdLit W v k l → l.natAbs ≠ 1) →
    propagateLits cc ls W = .ok (true, W') → SameOrd W W' ∧ ∀ l ∈ ls, Linked cc W' l
  | [], W, W', hi, _, h => by
    obtain ⟨-, rfl⟩ := pure_iff.mp h
    exact ⟨SameOrd.refl hi, fun l hl => (List.not_mem_nil hl).elim⟩
  | l :: ls, W, W', hi, hf, h => by
    unfold propagateLits at h
    rw [bind_iff] at h
    obtain ⟨r, W1, h1, h⟩ := h
    cases r with
    | false =>
      obtain ⟨h, -⟩ := pure_iff.mp (show (pure false : SM Bool) W1 = .ok (true, W') from h)
      cases h
    | true =>
      have h : propagateLits cc ls W1 = .ok (true, W') := h
      unfold propagateLit at h1
      rw [bind_iff] at h1
      obtain ⟨_, W2, h2, h1⟩ := h1
      obtain rfl := modify_iff.mp h2
      have s0 : SameOrd W { W with book := (W.book.consOf l).foldl Book.markTodo W.book } := ⟨hi.other rfl rfl rfl, fun _ _ _ => Iff.rfl, List.suffix_refl _, rfl⟩
      obtain ⟨s1, k1⟩ := updateDomain_linked s0.ti (fun v k l ho => hf v k l ((s0.ord _ _ _).mp ho)) hr hc h1
      have s := s0.trans s1
      obtain ⟨s2, k2⟩ := propagateLits_linked hr hc s.ti (fun v k l ho => hf v k l ((s.ord _ _ _).mp ho)) h
      refine ⟨s.trans s2, fun m hm => ?_⟩
      rcases List.mem_cons.mp hm with rfl | hm
      · exact linked_of k1 hr.mono s2
      · exact k2 m hm

theorem solverPropagate_linked (hr : Responsive cc) (hc : cc.level ≠ 0) {ls : List Int} (hi : TI W) (hf : ∀ v k l, OrdLit W v k l → l.natAbs ≠ 1)
    (h : solverPropagate cc ls W = .ok (true, W')) : SameOrd W W' ∧ ∀ l ∈ ls, Linked cc W' l := by
  unfold solverPropagate at h
  rw [bind_iff] at h
  obtain ⟨_, W1, h1, h⟩ := h
  have s0 : SameOrd W W1 := by
    unfold pushLevel at h1
    rw [bind_iff] at h1
    obtain ⟨lvl, W2, h2, h1⟩ := h1
    obtain ⟨-, rfl⟩ := curLevel_level h2
    rcases whenS_iff.mp h1 with ⟨-, h1⟩ | ⟨-, rfl⟩
    · obtain rfl := modify_iff.mp h1
      exact ⟨hi.other rfl rfl rfl, fun _ _ _ => Iff.rfl, List.suffix_refl _, rfl⟩
    · exact SameOrd.refl hi
  obtain ⟨s1, k1⟩ := propagateLits_linked hr hc s0.ti (fun v k l ho => hf v k l ((s0.ord _ _ _).mp ho)) h
  exact ⟨s0.trans s1, k1⟩

end Clingcon
