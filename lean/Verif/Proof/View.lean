import Verif.Proof.Watch

/-! The watches of constraints and the bounds they have been informed about. -/
namespace Clingcon

/-- The parts of a solver state that determine which bounds a constraint has been informed about: removed watches
by level, watches, bounds the constraints have been informed about, and bounds before levels have been opened. -/
structure View where
  segs : List (Nat × List (Nat × Int × Nat))
  wt : Nat → List (Int × Nat)
  dl : Nat → Int
  du : Nat → Int
  al : Nat → Nat → Int
  au : Nat → Nat → Int

/-- The watches of a constraint on a variable. -/
def View.have (V : View) (n v : Nat) : List (Int × Nat) := (V.wt v).filter (fun w => w.2 == n)
/-- The removed watches of a constraint on a variable. -/
def gones (s : Nat × List (Nat × Int × Nat)) (n v : Nat) : List (Nat × Int × Nat) := s.2.filter (fun r => r.1 == v && r.2.2 == n)

/-- The watches of constraint `n` on variable `v` are all present or all removed at the same level, and the constraint
has been informed about bounds `x` and `y`. -/
inductive St (V : View) (n : Nat) (c : CState) (v : Nat) : Int → Int → Prop
  | none (x y : Int) (h1 : own c v = []) (h2 : V.have n v = []) (h3 : ∀ s ∈ V.segs, gones s n v = []) : St V n c v x y
  | pres (h1 : ((V.have n v).map (·.1)).Perm (own c v)) (h2 : ∀ s ∈ V.segs, gones s n v = [])
      (h3 : ∀ s ∈ V.segs, c.removableAt s.1 = true → V.al s.1 v = V.dl v ∧ V.au s.1 v = V.du v) : St V n c v (V.dl v) (V.du v)
  | gone (s : Nat × List (Nat × Int × Nat)) (h0 : s ∈ V.segs) (h1 : V.have n v = [])
      (h2 : ((gones s n v).map (·.2.1)).Perm (own c v)) (h3 : ∀ t ∈ V.segs, t.1 ≠ s.1 → gones t n v = [])
      (h4 : c.removableAt s.1 = true)
      (h5 : ∀ t ∈ V.segs, t.1 ≤ s.1 → c.removableAt t.1 = true → V.al t.1 v = V.al s.1 v ∧ V.au t.1 v = V.au s.1 v) :
      St V n c v (V.al s.1 v) (V.au s.1 v)

/-- The constraint has been informed about the bounds of all its variables. -/
def Tracked (V : View) (n : Nat) (c : CState) : Prop :=
  ∃ aL aU : Nat → Int, Counted c aL aU ∧ ∀ v, St V n c v (aL v) (aU v)

theorem removableAt_pos {c : CState} {k : Nat} (h : c.removableAt k = true) : 0 < k ∧ 0 < c.inactive ∧ c.inactive ≤ k := by
  unfold CState.removableAt CState.markedInactive at h
  simp at h; omega

theorem removableAt_mono {c : CState} {k k' : Nat} (h : c.removableAt k = true) (hk : k ≤ k') : c.removableAt k' = true := by
  unfold CState.removableAt CState.markedInactive at *
  simp at *; omega

theorem removableAt_of {c : CState} {k : Nat} (h1 : 0 < c.inactive) (h2 : c.inactive ≤ k) : c.removableAt k = true := by
  unfold CState.removableAt CState.markedInactive; simp; omega

theorem own_same {c c' : CState} (h : c'.con = c.con) (v : Nat) : own c' v = own c v := by unfold own; rw [h]

/-- Views that agree on everything but bounds before level zero. -/
structure SameV (V V' : View) : Prop where
  segs : V'.segs = V.segs
  wt : V'.wt = V.wt
  dl : V'.dl = V.dl
  du : V'.du = V.du
  al : ∀ s ∈ V.segs, 0 < s.1 → V'.al s.1 = V.al s.1
  au : ∀ s ∈ V.segs, 0 < s.1 → V'.au s.1 = V.au s.1

theorem St.same {V V' : View} {n : Nat} {c c' : CState} {v : Nat} {x y : Int} (hV : SameV V V') (hc : SameF c c') (h : St V n c v x y) :
    St V' n c' v x y := by
  have hh : ∀ v, V'.have n v = V.have n v := fun v => by unfold View.have; rw [hV.wt]
  have ho := own_same hc.con v
  cases h with
  | none x y h1 h2 h3 => exact .none _ _ (ho.trans h1) ((hh v).trans h2) (by rw [hV.segs]; exact h3)
  | pres h1 h2 h3 =>
    rw [← hV.dl, ← hV.du]
    refine .pres (by rw [hh, ho]; exact h1) (by rw [hV.segs]; exact h2) ?_
    rw [hV.segs, hV.dl, hV.du]
    intro s hs hr
    rw [hc.removableAt] at hr
    have hp := removableAt_pos hr
    rw [hV.al s hs hp.1, hV.au s hs hp.1]
    exact h3 s hs hr
  | gone s h0 h1 h2 h3 h4 h5 =>
    have hp := (removableAt_pos h4).1
    rw [← hV.al s h0 hp, ← hV.au s h0 hp]
    refine .gone s (by rw [hV.segs]; exact h0) (by rw [hh]; exact h1) (by rw [ho]; exact h2) (by rw [hV.segs]; exact h3) (by rw [hc.removableAt]; exact h4) ?_
    rw [hV.segs]
    intro t ht hts hr
    rw [hc.removableAt] at hr
    have hp' := (removableAt_pos hr).1
    rw [hV.al s h0 hp, hV.au s h0 hp, hV.al t ht hp', hV.au t ht hp']
    exact h5 t ht hts hr

theorem Tracked.same {V V' : View} {n : Nat} {c c' : CState} (hV : SameV V V') (hf : SameF c c') (hc : SameC c c') (h : Tracked V n c) :
    Tracked V' n c' := by
  obtain ⟨aL, aU, h1, h2⟩ := h
  exact ⟨aL, aU, h1.same hc, fun v => (h2 v).same hV hf⟩

theorem SameV.refl (V : View) : SameV V V := ⟨rfl, rfl, rfl, rfl, fun _ _ _ => rfl, fun _ _ _ => rfl⟩

theorem Counted.congr {c : CState} {aL aU aL' aU' : Nat → Int} (h : Counted c aL aU)
    (he : ∀ v, own c v ≠ [] → aL v = aL' v ∧ aU v = aU' v) : Counted c aL' aU' := by
  have hm : ∀ {i : Int} {v : Nat}, (i, v) ∈ c.con.watches → aL v = aL' v ∧ aU v = aU' v := by
    intro i v hi
    apply he
    intro h
    have : i ∈ own c v := List.mem_map.mpr ⟨(i, v), List.mem_filter.mpr ⟨hi, by simp⟩, rfl⟩
    rw [h] at this; cases this
  unfold Counted Mid at *
  cases hc : c.con with
  | sum l r es =>
    rw [hc] at h hm; dsimp only at *
    unfold upSum at *
    rw [lowSum_congr (es := es) (aL := aL') (aL' := aL) (aU' := aU) (fun w hw => ⟨(hm (show (w.1, w.2) ∈ es from hw)).1.symm, (hm (show (w.1, w.2) ∈ es from hw)).2.symm⟩),
      lowSum_congr (es := es) (aL := aU') (aL' := aU) (aU' := aL) (fun w hw => ⟨(hm (show (w.1, w.2) ∈ es from hw)).2.symm, (hm (show (w.1, w.2) ∈ es from hw)).1.symm⟩)]
    exact h
  | minimize l es =>
    rw [hc] at h hm; dsimp only at *
    unfold upSum at *
    rw [lowSum_congr (es := es) (aL := aL') (aL' := aL) (aU' := aU) (fun w hw => ⟨(hm (show (w.1, w.2) ∈ es from hw)).1.symm, (hm (show (w.1, w.2) ∈ es from hw)).2.symm⟩),
      lowSum_congr (es := es) (aL := aU') (aL' := aU) (aU' := aL) (fun w hw => ⟨(hm (show (w.1, w.2) ∈ es from hw)).2.symm, (hm (show (w.1, w.2) ∈ es from hw)).1.symm⟩)]
    exact h
  | distinct l es =>
    rw [hc] at h hm; dsimp only at *
    obtain ⟨h1, h2, h3, h4⟩ := h
    refine ⟨h1, h2, h3, ?_⟩
    intro idx e hi hd
    rw [h4 idx e hi hd]
    have hw : ∀ w ∈ e.1, aL w.2 = aL' w.2 ∧ aU w.2 = aU' w.2 := by
      rintro ⟨co, w⟩ hw
      obtain ⟨i, hi, -⟩ := distinctWatches_mem (k := 0) hi hw
      exact hm hi
    unfold upSum
    rw [lowSum_congr (fun w h => hw w h), lowSum_congr (aL := aU) (fun w h => ⟨(hw w h).2, (hw w h).1⟩)]
  | disjoint l es => rw [hc] at h; exact h
  | nonlinear l ca x y cb z r => trivial

/-- Constraints that are not removable at any open level have been informed about all delivered bounds. -/
theorem Tracked.counted {V : View} {n : Nat} {c : CState} (h : Tracked V n c) (hr : ∀ s ∈ V.segs, c.removableAt s.1 = false) :
    Counted c V.dl V.du := by
  obtain ⟨aL, aU, h1, h2⟩ := h
  refine h1.congr (fun v hv => ?_)
  have := h2 v
  generalize hx : aL v = x at this
  generalize hy : aU v = y at this
  cases this with
  | none x y h1 h2 h3 => exact absurd h1 hv
  | pres => exact ⟨rfl, rfl⟩
  | gone s h0 _ _ _ h4 _ => rw [hr s h0] at h4; cases h4

theorem Tracked.pres {V : View} {n : Nat} {c : CState} (h : Tracked V n c) (hr : ∀ s ∈ V.segs, c.removableAt s.1 = false) (v : Nat) :
    ((V.have n v).map (·.1)).Perm (own c v) ∧ ∀ s ∈ V.segs, gones s n v = [] := by
  obtain ⟨aL, aU, h1, h2⟩ := h
  have h2 := h2 v
  generalize aL v = x at h2
  generalize aU v = y at h2
  cases h2 with
  | none x y h1 h2 h3 => exact ⟨by rw [h1, h2]; exact List.Perm.refl _, h3⟩
  | pres h1 h2 => exact ⟨h1, h2⟩
  | gone s h0 _ _ _ h4 _ => rw [hr s h0] at h4; cases h4

/-- Constraints that have been informed about all delivered bounds. -/
theorem Tracked.intro {V : View} {n : Nat} {c : CState} (hc : Counted c V.dl V.du) (hr : ∀ s ∈ V.segs, c.removableAt s.1 = false)
    (h : ∀ v, ((V.have n v).map (·.1)).Perm (own c v) ∧ ∀ s ∈ V.segs, gones s n v = []) : Tracked V n c :=
  ⟨V.dl, V.du, hc, fun v => .pres (h v).1 (h v).2 (fun s hs h => by rw [hr s hs] at h; cases h)⟩

/-- Bounds after adding `d` to the lower or upper (`up`) bound of a variable. -/
structure Shift (up : Bool) (v : Nat) (d : Int) (dl du dl' du' : Nat → Int) : Prop where
  dl : dl' = if up then dl else Function.update dl v (dl v + d)
  du : du' = if up then Function.update du v (du v + d) else du

theorem Shift.other {up : Bool} {v : Nat} {d : Int} {dl du dl' du' : Nat → Int} (h : Shift up v d dl du dl' du') {w : Nat} (hw : w ≠ v) :
    dl' w = dl w ∧ du' w = du w := by
  rw [h.dl, h.du]
  cases up <;> simp [hw]

theorem filter_and {α : Type} {p q : α → Bool} {l : List α} (h : l.filter q = []) : l.filter (fun x => p x && q x) = [] := by
  rw [List.filter_eq_nil_iff] at *
  intro a ha hpq
  simp only [Bool.and_eq_true] at hpq
  exact h a ha hpq.2

theorem filter_var {added : List (Nat × Int × Nat)} {v n : Nat} (h : ∀ r ∈ added, r.1 = v) :
    added.filter (fun r => r.1 == v && r.2.2 == n) = added.filter (fun r => r.2.2 == n) := by
  apply List.filter_congr
  intro r hr
  simp [h r hr]

theorem filter_other {added : List (Nat × Int × Nat)} {v w n : Nat} (h : ∀ r ∈ added, r.1 = v) (hw : w ≠ v) :
    added.filter (fun r => r.1 == w && r.2.2 == n) = [] := by
  rw [List.filter_eq_nil_iff]
  intro r hr
  simp [h r hr, hw.symm]

/-- Informing constraints about the change of a bound. -/
theorem Tracked.deliver {V V' : View} {k : Nat} {rs added : List (Nat × Int × Nat)} {ss : List (Nat × List (Nat × Int × Nat))}
    {v : Nat} {d : Int} {kept : List (Int × Nat)} {n : Nat} {c c' : CState} {up : Bool}
    (hs : V.segs = (k, rs) :: ss) (hl : ∀ t ∈ ss, t.1 < k) (hs' : V'.segs = (k, rs ++ added) :: ss)
    (hwt : V'.wt = Function.update V.wt v kept) (hd : Shift up v d V.dl V.du V'.dl V'.du) (hal : V'.al = V.al) (hau : V'.au = V.au)
    (hva : ∀ r ∈ added, r.1 = v) (hdd : if up then d < 0 else 0 < d) (hf : SameF c c')
    (h1 : c.removableAt k = true → SameC c c' ∧ kept.filter (fun w => w.2 == n) = [] ∧
      added.filter (fun r => r.2.2 == n) = ((V.wt v).filter (fun w => w.2 == n)).map (fun w => (v, w.1, n)))
    (h2 : c.removableAt k = false → kept.filter (fun w => w.2 == n) = (V.wt v).filter (fun w => w.2 == n) ∧
      added.filter (fun r => r.2.2 == n) = [] ∧
      ∀ up aL aU done, (if up then d < 0 else 0 < d) → Mid up c aL aU d done →
        Mid up c' aL aU d ((((V.wt v).filter (fun w => w.2 == n)).map (·.1)).reverse ++ done))
    (ht : Tracked V n c) : Tracked V' n c' := by
  have hko : ∀ w, w ≠ v → V'.have n w = V.have n w := fun w hw => by unfold View.have; rw [hwt, Function.update_of_ne hw]
  have hkv : V'.have n v = kept.filter (fun w => w.2 == n) := by unfold View.have; rw [hwt, Function.update_self]
  have hgo : ∀ w, w ≠ v → gones (k, rs ++ added) n w = gones (k, rs) n w := fun w hw => by
    unfold gones; simp only [List.filter_append, filter_other hva hw, List.append_nil]
  have hgv : gones (k, rs ++ added) n v = gones (k, rs) n v ++ added.filter (fun r => r.2.2 == n) := by
    unfold gones; simp only [List.filter_append, filter_var hva]
  have hall : ∀ {w}, w ≠ v → (∀ s ∈ V.segs, gones s n w = []) → ∀ s ∈ V'.segs, gones s n w = [] := by
    intro w hw h s hsm
    rw [hs'] at hsm
    rw [hs] at h
    rcases List.mem_cons.mp hsm with rfl | hsm
    · rw [hgo w hw]; exact h _ (List.mem_cons_self ..)
    · exact h s (List.mem_cons_of_mem _ hsm)
  by_cases hr : c.removableAt k = true
  · obtain ⟨hsame, hk, ha⟩ := h1 hr
    obtain ⟨aL, aU, hc, hst⟩ := ht
    refine ⟨aL, aU, hc.same hsame, fun w => ?_⟩
    have hw := hst w
    generalize hx : aL w = x at hw ⊢
    generalize hy : aU w = y at hw ⊢
    have ho := own_same hf.con w
    by_cases hwv : w = v
    · subst hwv
      cases hw with
      | none x y g1 g2 g3 =>
        refine .none _ _ (ho.trans g1) (hkv.trans hk) ?_
        have ha0 : added.filter (fun r => r.2.2 == n) = [] := by
          have : (V.wt w).filter (fun w => w.2 == n) = [] := g2
          rw [ha, this]; rfl
        intro s hsm
        rw [hs'] at hsm; rw [hs] at g3
        rcases List.mem_cons.mp hsm with rfl | hsm
        · rw [hgv, ha0, g3 _ (List.mem_cons_self ..)]; rfl
        · exact g3 s (List.mem_cons_of_mem _ hsm)
      | pres g1 g2 g3 =>
        have htop := g3 (k, rs) (by rw [hs]; exact List.mem_cons_self ..) hr
        simp only at htop
        rw [← htop.1, ← htop.2, ← hal, ← hau]
        refine .gone (k, rs ++ added) (by rw [hs']; exact List.mem_cons_self ..) (hkv.trans hk) ?_ ?_ (by rw [hf.removableAt]; exact hr) ?_
        · rw [hgv, g2 _ (by rw [hs]; exact List.mem_cons_self ..), ha, ho]
          rw [List.nil_append, List.map_map]
          exact g1
        · intro t ht hne
          rw [hs'] at ht
          rcases List.mem_cons.mp ht with rfl | ht
          · exact absurd rfl hne
          · exact g2 t (by rw [hs]; exact List.mem_cons_of_mem _ ht)
        · intro t ht hle hrt
          rw [hs'] at ht
          rcases List.mem_cons.mp ht with rfl | ht
          · exact ⟨rfl, rfl⟩
          · rw [hf.removableAt] at hrt
            have := g3 t (by rw [hs]; exact List.mem_cons_of_mem _ ht) hrt
            rw [hal, hau, this.1, this.2]
            exact ⟨htop.1.symm, htop.2.symm⟩
      | gone s g0 g1 g2 g3 g4 g5 =>
        have ha0 : added.filter (fun r => r.2.2 == n) = [] := by
          have : (V.wt w).filter (fun w => w.2 == n) = [] := g1
          rw [ha, this]; rfl
        rw [← hal, ← hau]
        rw [hs] at g0
        rcases List.mem_cons.mp g0 with rfl | g0
        · refine .gone (k, rs ++ added) (by rw [hs']; exact List.mem_cons_self ..) (hkv.trans hk) (by rw [hgv, ha0, List.append_nil, ho]; exact g2)
            ?_ (by rw [hf.removableAt]; exact hr) ?_
          · intro t ht hne
            rw [hs'] at ht
            rcases List.mem_cons.mp ht with rfl | ht
            · exact absurd rfl hne
            · exact g3 t (by rw [hs]; exact List.mem_cons_of_mem _ ht) hne
          · intro t ht hle hrt
            rw [hf.removableAt] at hrt
            rw [hs'] at ht
            rw [hal, hau]
            rcases List.mem_cons.mp ht with rfl | ht
            · exact ⟨rfl, rfl⟩
            · exact g5 t (by rw [hs]; exact List.mem_cons_of_mem _ ht) hle hrt
        · refine .gone s (by rw [hs']; exact List.mem_cons_of_mem _ g0) (hkv.trans hk) (by rw [ho]; exact g2)
            ?_ (by rw [hf.removableAt]; exact g4) ?_
          · intro t ht hne
            rw [hs'] at ht
            rcases List.mem_cons.mp ht with rfl | ht
            · rw [hgv, ha0, g3 (k, rs) (by rw [hs]; exact List.mem_cons_self ..) hne]; rfl
            · exact g3 t (by rw [hs]; exact List.mem_cons_of_mem _ ht) hne
          · intro t ht hle hrt
            rw [hf.removableAt] at hrt
            rw [hs'] at ht
            rw [hal, hau]
            rcases List.mem_cons.mp ht with rfl | ht
            · have := hl s g0; simp only at hle; omega
            · exact g5 t (by rw [hs]; exact List.mem_cons_of_mem _ ht) hle hrt
    · obtain ⟨e1, e2⟩ := hd.other hwv
      cases hw with
      | none x y g1 g2 g3 => exact .none _ _ (ho.trans g1) ((hko w hwv).trans g2) (hall hwv g3)
      | pres g1 g2 g3 =>
        rw [← e1, ← e2]
        refine .pres (by rw [hko w hwv, ho]; exact g1) (hall hwv g2) ?_
        intro s hsm hrs
        rw [e1, e2, hal, hau]
        rw [hf.removableAt] at hrs
        rw [hs'] at hsm; rw [hs] at g3
        rcases List.mem_cons.mp hsm with rfl | hsm
        · exact g3 (k, rs) (List.mem_cons_self ..) hrs
        · exact g3 s (List.mem_cons_of_mem _ hsm) hrs
      | gone s g0 g1 g2 g3 g4 g5 =>
        rw [← hal, ← hau]
        obtain ⟨s', hs'm, hlev, hgs⟩ : ∃ s', s' ∈ V'.segs ∧ s'.1 = s.1 ∧ gones s' n w = gones s n w := by
          rw [hs] at g0
          rcases List.mem_cons.mp g0 with rfl | g0
          · exact ⟨(k, rs ++ added), by rw [hs']; exact List.mem_cons_self .., rfl, hgo w hwv⟩
          · exact ⟨s, by rw [hs']; exact List.mem_cons_of_mem _ g0, rfl, rfl⟩
        rw [← hlev]
        refine .gone s' hs'm (by rw [hko w hwv]; exact g1) (by rw [hgs, ho]; exact g2) ?_ (by rw [hf.removableAt, hlev]; exact g4) ?_
        · intro t ht hne
          rw [hlev] at hne
          rw [hs'] at ht; rw [hs] at g3
          rcases List.mem_cons.mp ht with rfl | ht
          · rw [hgo w hwv]; exact g3 _ (List.mem_cons_self ..) hne
          · exact g3 t (List.mem_cons_of_mem _ ht) hne
        · intro t ht hle hrt
          rw [hf.removableAt] at hrt
          rw [hlev] at hle ⊢
          rw [hal, hau]
          rw [hs'] at ht; rw [hs] at g5
          rcases List.mem_cons.mp ht with rfl | ht
          · exact g5 (k, rs) (List.mem_cons_self ..) hle hrt
          · exact g5 t (List.mem_cons_of_mem _ ht) hle hrt
  · have hr : c.removableAt k = false := by simpa using hr
    obtain ⟨hk, ha, hm⟩ := h2 hr
    have hnr : ∀ s ∈ V.segs, c.removableAt s.1 = false := by
      intro s hsm
      by_contra hc
      have hle : s.1 ≤ k := by
        rw [hs] at hsm
        rcases List.mem_cons.mp hsm with rfl | hsm
        · exact le_refl _
        · exact le_of_lt (hl s hsm)
      rw [removableAt_mono (by simpa using hc) hle] at hr; cases hr
    have hcnt := ht.counted hnr
    have hp := ht.pres hnr
    have hmid := hm up _ _ [] hdd (counted_mid.mp hcnt)
    rw [List.append_nil] at hmid
    have hdone := mid_done hmid (v := v) (by rw [own_same hf.con]; exact (List.reverse_perm _).trans (hp v).1)
    rw [← hd.dl, ← hd.du] at hdone
    refine Tracked.intro hdone ?_ ?_
    · intro s hsm
      rw [hf.removableAt]
      rw [hs'] at hsm
      rcases List.mem_cons.mp hsm with rfl | hsm
      · exact hr
      · exact hnr s (by rw [hs]; exact List.mem_cons_of_mem _ hsm)
    · intro w
      by_cases hwv : w = v
      · subst hwv
        refine ⟨by rw [hkv, hk, own_same hf.con]; exact (hp w).1, ?_⟩
        intro s hsm
        rw [hs'] at hsm
        rcases List.mem_cons.mp hsm with rfl | hsm
        · rw [hgv, ha, (hp w).2 (k, rs) (by rw [hs]; exact List.mem_cons_self ..)]; rfl
        · exact (hp w).2 s (by rw [hs]; exact List.mem_cons_of_mem _ hsm)
      · exact ⟨by rw [hko w hwv, own_same hf.con]; exact (hp w).1, hall hwv (hp w).2⟩

/-- Undoing the change of a bound. -/
theorem Tracked.undoVar {V V' : View} {k : Nat} {rs : List (Nat × Int × Nat)} {ss : List (Nat × List (Nat × Int × Nat))}
    {v : Nat} {d : Int} {n : Nat} {c c' : CState} {up : Bool}
    (hs : V.segs = (k, rs) :: ss) (hl : ∀ t ∈ ss, t.1 < k) (hs' : V'.segs = V.segs) (hwt : V'.wt = V.wt)
    (hd : Shift up v (-d) V.dl V.du V'.dl V'.du) (hv : if up then V.du v - d = V.au k v else V.dl v - d = V.al k v)
    (hal : ∀ s ∈ V.segs, V'.al s.1 = V.al s.1) (hau : ∀ s ∈ V.segs, V'.au s.1 = V.au s.1)
    (hdd : if up then d < 0 else 0 < d) (hf : SameF c c')
    (h1 : (V.wt v).filter (fun w => w.2 == n) = [] → SameC c c')
    (h2 : ∀ up aL aU done, (if up then d < 0 else 0 < d) → Mid up c aL aU (-d) done →
        Mid up c' aL aU (-d) ((((V.wt v).filter (fun w => w.2 == n)).map (·.1)).reverse ++ done))
    (ht : Tracked V n c) : Tracked V' n c' := by
  have hh : ∀ w, V'.have n w = V.have n w := fun w => by unfold View.have; rw [hwt]
  obtain ⟨aL, aU, hc, hst⟩ := ht
  -- other variables
  have hother : ∀ w, (w ≠ v ∨ ∀ x y, St V n c w x y → ¬ (x = V.dl w ∧ y = V.du w) ∨ own c w = []) → ∀ x y, St V n c w x y → St V' n c' w x y := by
    intro w hw x y h
    have ho := own_same hf.con w
    cases h with
    | none x y g1 g2 g3 => exact .none _ _ (ho.trans g1) ((hh w).trans g2) (by rw [hs']; exact g3)
    | pres g1 g2 g3 =>
      rcases hw with hw | hw
      · obtain ⟨e1, e2⟩ := hd.other hw
        rw [← e1, ← e2]
        refine .pres (by rw [hh, ho]; exact g1) (by rw [hs']; exact g2) ?_
        rw [hs', e1, e2]
        intro s hsm hrs
        rw [hf.removableAt] at hrs
        rw [hal s hsm, hau s hsm]; exact g3 s hsm hrs
      · rcases hw _ _ (.pres g1 g2 g3) with hw | hw
        · exact absurd ⟨rfl, rfl⟩ hw
        · refine .none _ _ (ho.trans hw) ?_ (by rw [hs']; exact g2)
          rw [hh]
          rw [hw] at g1
          exact List.map_eq_nil_iff.mp g1.eq_nil
    | gone s g0 g1 g2 g3 g4 g5 =>
      rw [← hal s g0, ← hau s g0]
      refine .gone s (by rw [hs']; exact g0) (by rw [hh]; exact g1) (by rw [ho]; exact g2) (by rw [hs']; exact g3) (by rw [hf.removableAt]; exact g4) ?_
      rw [hs']
      intro t ht hle hrt
      rw [hf.removableAt] at hrt
      rw [hal s g0, hau s g0, hal t ht, hau t ht]
      exact g5 t ht hle hrt
  have hv0 := hst v
  generalize hx : aL v = x at hv0
  generalize hy : aU v = y at hv0
  cases hv0 with
  | none x y g1 g2 g3 =>
    refine ⟨aL, aU, hc.same (h1 g2), fun w => hother w ?_ _ _ (hst w)⟩
    by_cases hw : w = v
    · subst hw; exact Or.inr (fun _ _ _ => Or.inr g1)
    · exact Or.inl hw
  | gone s g0 g1 g2 g3 g4 g5 =>
    refine ⟨aL, aU, hc.same (h1 g1), fun w => ?_⟩
    by_cases hw : w = v
    · subst hw
      rw [hx, hy, ← hal s g0, ← hau s g0]
      refine .gone s (by rw [hs']; exact g0) (by rw [hh]; exact g1) (by rw [own_same hf.con]; exact g2) (by rw [hs']; exact g3)
        (by rw [hf.removableAt]; exact g4) ?_
      rw [hs']
      intro t ht hle hrt
      rw [hf.removableAt] at hrt
      rw [hal s g0, hau s g0, hal t ht, hau t ht]
      exact g5 t ht hle hrt
    · exact hother w (Or.inl hw) _ _ (hst w)
  | pres g1 g2 g3 =>
    have htop : c.removableAt k = false := by
      by_contra hr
      have := g3 (k, rs) (by rw [hs]; exact List.mem_cons_self ..) (by simpa using hr)
      simp only at this
      cases up with
      | true => simp only [if_true] at hv hdd; rw [this.2] at hv; omega
      | false => simp only [Bool.false_eq_true, if_false] at hv hdd; rw [this.1] at hv; omega
    have hmid := h2 up _ _ [] hdd (counted_mid.mp hc)
    rw [List.append_nil] at hmid
    have hdone := mid_done hmid (v := v) (by rw [own_same hf.con]; exact (List.reverse_perm _).trans g1)
    refine ⟨_, _, hdone, fun w => ?_⟩
    by_cases hw : w = v
    · subst hw
      have e1 : (if up = true then aL else Function.update aL w (aL w + -d)) w = V'.dl w := by
        rw [hd.dl, hx]; cases up <;> simp [hx]
      have e2 : (if up = true then Function.update aU w (aU w + -d) else aU) w = V'.du w := by
        rw [hd.du, hy]; cases up <;> simp [hy]
      rw [e1, e2]
      refine .pres (by rw [hh, own_same hf.con]; exact g1) (by rw [hs']; exact g2) ?_
      rw [hs']
      intro s hsm hrs
      rw [hf.removableAt] at hrs
      exfalso
      have hle : s.1 ≤ k := by
        rw [hs] at hsm
        rcases List.mem_cons.mp hsm with rfl | hsm
        · exact le_refl _
        · exact le_of_lt (hl s hsm)
      rw [removableAt_mono hrs hle] at htop; cases htop
    · have e1 : (if up = true then aL else Function.update aL v (aL v + -d)) w = aL w := by
        cases up <;> simp [hw]
      have e2 : (if up = true then Function.update aU v (aU v + -d) else aU) w = aU w := by
        cases up <;> simp [hw]
      rw [e1, e2]
      exact hother w (Or.inl hw) _ _ (hst w)

/-- Opening a level. -/
theorem Tracked.push {V V' : View} {k : Nat} {n : Nat} {c : CState} (hs : V'.segs = (k, []) :: V.segs) (hl : ∀ t ∈ V.segs, t.1 < k)
    (hwt : V'.wt = V.wt) (hdl : V'.dl = V.dl) (hdu : V'.du = V.du) (hal : V'.al = V.al) (hau : V'.au = V.au)
    (hk : V.al k = V.dl ∧ V.au k = V.du) (ht : Tracked V n c) : Tracked V' n c := by
  have hh : ∀ w, V'.have n w = V.have n w := fun w => by unfold View.have; rw [hwt]
  obtain ⟨aL, aU, hc, hst⟩ := ht
  refine ⟨aL, aU, hc, fun w => ?_⟩
  have hw := hst w
  generalize aL w = x at hw ⊢
  generalize aU w = y at hw ⊢
  have hg : (∀ s ∈ V.segs, gones s n w = []) → ∀ s ∈ V'.segs, gones s n w = [] := by
    intro h s hsm
    rw [hs] at hsm
    rcases List.mem_cons.mp hsm with rfl | hsm
    · rfl
    · exact h s hsm
  cases hw with
  | none x y g1 g2 g3 => exact .none _ _ g1 ((hh w).trans g2) (hg g3)
  | pres g1 g2 g3 =>
    rw [← hdl, ← hdu]
    refine .pres (by rw [hh]; exact g1) (hg g2) ?_
    intro s hsm hr
    rw [hal, hau, hdl, hdu]
    rw [hs] at hsm
    rcases List.mem_cons.mp hsm with rfl | hsm
    · simp only; rw [hk.1, hk.2]; exact ⟨rfl, rfl⟩
    · exact g3 s hsm hr
  | gone s g0 g1 g2 g3 g4 g5 =>
    rw [← hal, ← hau]
    refine .gone s (by rw [hs]; exact List.mem_cons_of_mem _ g0) (by rw [hh]; exact g1) g2 ?_ g4 ?_
    · intro t ht hne
      rw [hs] at ht
      rcases List.mem_cons.mp ht with rfl | ht
      · rfl
      · exact g3 t ht hne
    · intro t ht hle hr
      rw [hs] at ht
      rw [hal, hau]
      rcases List.mem_cons.mp ht with rfl | ht
      · have := hl s g0; simp only at hle; omega
      · exact g5 t ht hle hr

/-- Closing a level after its changes of bounds have been undone. -/
theorem Tracked.leave {V V' : View} {k : Nat} {rs : List (Nat × Int × Nat)} {n : Nat} {c c' : CState} {segs : List (Nat × List (Nat × Int × Nat))}
    (hs : V.segs = (k, rs) :: segs) (hs' : V'.segs = segs) (hl : ∀ t ∈ segs, t.1 < k)
    (hwt : ∀ v, (V'.have n v) = V.have n v ++ (gones (k, rs) n v).map (·.2))
    (hdl : V'.dl = V.dl) (hdu : V'.du = V.du) (hal : V'.al = V.al) (hau : V'.au = V.au)
    (hk : V.al k = V.dl ∧ V.au k = V.du) (hcc : SameC c c') (hfc : c'.con = c.con)
    (hin : c'.inactive = c.inactive ∨ (c'.inactive = 0 ∧ c.inactive = k + 1)) (ht : Tracked V n c) : Tracked V' n c' := by
  obtain ⟨aL, aU, hc, hst⟩ := ht
  refine ⟨aL, aU, hc.same hcc, fun w => ?_⟩
  have hw := hst w
  generalize aL w = x at hw ⊢
  generalize aU w = y at hw ⊢
  have ho := own_same hfc w
  have hrm : ∀ {j}, c'.removableAt j = true → c.removableAt j = true := by
    intro j hj
    have := removableAt_pos hj
    rcases hin with h | h
    · rw [h] at this; exact removableAt_of this.2.1 this.2.2
    · omega
  have htop : (k, rs) ∈ V.segs := by rw [hs]; exact List.mem_cons_self ..
  have hold : ∀ {t}, t ∈ V'.segs → t ∈ V.segs := by
    intro t ht; rw [hs'] at ht; rw [hs]; exact List.mem_cons_of_mem _ ht
  cases hw with
  | none x y g1 g2 g3 =>
    refine .none _ _ (ho.trans g1) ?_ (fun s hsm => g3 s (hold hsm))
    rw [hwt, g2, g3 _ htop]; rfl
  | pres g1 g2 g3 =>
    rw [← hdl, ← hdu]
    refine .pres ?_ (fun s hsm => g2 s (hold hsm)) ?_
    · rw [hwt, g2 _ htop, List.map_nil, List.append_nil, ho]; exact g1
    · intro s hsm hr
      rw [hdl, hdu, hal, hau]
      exact g3 s (hold hsm) (hrm hr)
  | gone s g0 g1 g2 g3 g4 g5 =>
    rw [hs] at g0
    rcases List.mem_cons.mp g0 with rfl | g0'
    · simp only
      rw [hk.1, hk.2, ← hdl, ← hdu]
      refine .pres ?_ ?_ ?_
      · rw [hwt, g1, List.nil_append, List.map_map, ho]; exact g2
      · intro t ht
        rw [hs'] at ht
        exact g3 t (by rw [hs]; exact List.mem_cons_of_mem _ ht) (by have := hl t ht; simp only; omega)
      · intro t ht hr
        rw [hdl, hdu, hal, hau]
        have := g5 t (hold ht) (by rw [hs'] at ht; exact le_of_lt (hl t ht)) (hrm hr)
        simp only at this
        rw [hk.1, hk.2] at this; exact this
    · rw [← hal, ← hau]
      have hlt := hl s g0'
      refine .gone s (by rw [hs']; exact g0') ?_ (by rw [ho]; exact g2) (fun t ht hne => g3 t (hold ht) hne) ?_ ?_
      · rw [hwt, g1, g3 _ htop (by simp only; omega)]; rfl
      · have := removableAt_pos g4
        rcases hin with h | h
        · exact removableAt_of (by omega) (by omega)
        · omega
      · intro t ht hle hr
        rw [hal, hau]
        exact g5 t (hold ht) hle (hrm hr)

/-- Marking a constraint inactive at the current level. -/
theorem Tracked.inactive {V : View} {n : Nat} {c : CState} {k : Nat} (hk : ∀ s ∈ V.segs, s.1 ≤ k) (h0 : c.inactive = 0) (ht : Tracked V n c) :
    Tracked V n { c with inactive := k + 1 } := by
  have hr : ∀ s ∈ V.segs, c.removableAt s.1 = false := by
    intro s _
    by_contra h
    have := removableAt_pos (by simpa using h : c.removableAt s.1 = true); omega
  have hr' : ∀ s ∈ V.segs, ({ c with inactive := k + 1 } : CState).removableAt s.1 = false := by
    intro s hs
    by_contra h
    have := removableAt_pos (by simpa using h : ({ c with inactive := k + 1 } : CState).removableAt s.1 = true)
    have := hk s hs
    simp only at *; omega
  have hc := ht.counted hr
  exact Tracked.intro (Counted.same (c := c) (c' := { c with inactive := k + 1 }) ⟨rfl, rfl, rfl, rfl, rfl, rfl, rfl, rfl, .refl _, id⟩ hc) hr' (ht.pres hr)

end Clingcon
