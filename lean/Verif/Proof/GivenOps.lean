import Verif.Proof.GivenRun

/-! Each call keeps the invariant that bounds are those given by the literals passed to `propagate`. -/
set_option linter.unusedSimpArgs false
set_option linter.unusedVariables false
namespace Clingcon
open Spec VarState

variable {α γ : Type} {W W0 W' : World} {cc : CC} {t : Told} {ts : List Told} {r : Bool}

/-- Calls other than `propagate` and `undo` neither open nor close a level. -/
theorem op_levels {op : Op} (hp : op.pre W) (h : op.exec W = .ok (r, W')) (hi : WI W) (h1 : ∀ cc ls, op ≠ .propagate cc ls) (h2 : op ≠ .undo) :
    W'.book.levels = W.book.levels := by
  have kp : ∀ {α : Type} {x : SM α} {a : α} {W' : World}, (∀ L A, Keep (At L A) x) → x W = .ok (a, W') → W'.book.levels = W.book.levels := by
    intro α x a W' hk hx
    have := (hk W.book.levels (alF (frame W), auF (frame W), (frame W).1.length)).keep _ _ _ hx ⟨hi.bi, rfl, fun _ _ _ _ _ => ⟨rfl, rfl⟩, rfl⟩
    exact this.lev
  have top : W.book.levels.length = 1 → B0 (frame W') → W'.book.levels = W.book.levels := by
    intro hl hb
    rw [hi.levels hl]
    exact hb.lev
  cases op with
  | addVar lo hi' =>
    obtain ⟨_, W1, h1, h2⟩ := SM.bind_ok h
    obtain ⟨-, rfl⟩ := pure_iff.mp h2
    obtain ⟨v, h3⟩ := discard_iff.mp h1
    exact top hp.1 ((hi.b0 hp.1).addVar h3).1
  | enable => rw [(enable_iff.mp h).2]
  | fresh => exact kp (fun L A => Keep.fr fr_fresh) h
  | post e => exact kp (fun L A => Keep.fr fr_post) h
  | literal cc v x => exact kp (fun L A => Keep.bind (Keep.discard (Keep.fr fr_getLiteral)) (fun _ => Keep.fr Fr.pure)) h
  | updLiteral cc v x t => exact kp (fun L A => Keep.bind (Keep.discard (Keep.fr fr_updateLiteral)) (fun _ => Keep.fr Fr.pure)) h
  | simple cc l co v r s => exact kp (fun L A => Keep.fr fr_addSimple) h
  | dom cc l v d => exact kp (fun L A => Keep.fr fr_addDom) h
  | addConstraint c =>
    obtain ⟨_, W1, h1, h2⟩ := SM.bind_ok h
    obtain ⟨-, rfl⟩ := pure_iff.mp h2
    obtain ⟨v, h3⟩ := discard_iff.mp h1
    exact top hp.1 ((hi.b0 hp.1).addConstraint ⟨hp.2.1, hp.2.2⟩ h3).1
  | removeConstraint n =>
    obtain ⟨_, W1, h1, h2⟩ := SM.bind_ok h
    obtain ⟨-, rfl⟩ := pure_iff.mp h2
    exact top hp ((hi.b0 hp).removeConstraint h1).1
  | removeConstraints rem =>
    obtain ⟨_, W1, h1, h2⟩ := SM.bind_ok h
    obtain ⟨-, rfl⟩ := pure_iff.mp h2
    obtain rfl := modify_iff.mp h1
    exact top hp ((hi.b0 hp).removeConstraints)
  | updateMinimize n l b => exact kp (fun L A => Keep.bind keep_updateMinimize (fun _ => Keep.fr Fr.pure)) h
  | propagate cc ls => exact absurd rfl (h1 cc ls)
  | check cc b n => exact kp (fun L A => keep_solverCheck) h
  | simplify cc t b n => exact kp (fun L A => keep_simplify hp) h
  | undo => exact absurd rfl h2
  | decide cc l => exact kp (fun L A => Keep.bind (Keep.discard (Keep.fr fr_solverDecide)) (fun _ => Keep.fr Fr.pure)) h
  | checkFull cc b => exact kp (fun L A => Keep.bind keep_solverCheckFull (fun _ => Keep.fr Fr.pure)) h
  | updateBounds cc o b n => exact kp (fun L A => keep_updateBounds) h
  | update n => exact kp (fun L A => Keep.bind keep_solverUpdate (fun _ => Keep.fr Fr.pure)) h

/-- The calls made off the top level besides `propagate` and `undo`. -/
theorem kw_deep {P : World → Prop} (hP : Prim0 P) {op : Op} (hp : op.pre W) (hf : feedPre ts W op) (hd : 0 < W.level) (hw : W.book.levels.length ≠ 1)
    (h1 : ∀ cc ls, op ≠ .propagate cc ls) (h2 : op ≠ .undo) : Kw P op.exec := by
  cases op with
  | addVar lo hi => exact absurd hp.1 hw
  | simple cc l co v r s => exact absurd hf.1 hw
  | enable => exact absurd hp hw
  | fresh => exact absurd hp hw
  | post e => exact absurd hp.1 hw
  | addConstraint c => exact absurd hp.1 hw
  | removeConstraint n => exact absurd hp hw
  | removeConstraints n => exact absurd hp hw
  | update n => exact absurd hf hw
  | propagate cc ls => exact absurd rfl (h1 cc ls)
  | undo => exact absurd rfl h2
  | simplify cc t b n =>
    have : W.level ≤ cc.level := hf
    have : cc.level = 0 := hp
    omega
  | check cc b n =>
    have : W.level ≤ cc.level := hf
    exact kwi_solverCheck hP (kwi_integrateFacts (by omega))
  | updateBounds cc o b n =>
    have : W.level ≤ cc.level := hf
    exact kwi_updateBounds hP (kwi_integrateFacts (by omega))
  | literal cc v x => unfold Op.exec; kw_auto
  | updLiteral cc v x t => unfold Op.exec; kw_auto
  | dom cc l v d => unfold Op.exec; kw_auto
  | updateMinimize n l b => unfold Op.exec; kw_auto
  | decide cc l => unfold Op.exec; kw_auto
  | checkFull cc b => unfold Op.exec; kw_auto

theorem ord_lt {v : Nat} {k l : Int} (h : OrdLit W v k l) : v < W.vars.length := by
  obtain ⟨vs, h, -⟩ := h
  exact (List.getElem?_eq_some_iff.mp h).1

theorem GI.top_step (h : GI W [t]) (wi : WI W') (ti : TI W') (hl : W.book.levels.length = 1) (hl' : W'.book.levels.length = 1) (hn : W.nextLit ≤ W'.nextLit)
    (ho : ∀ v k l, OrdLit W' v k l → l.natAbs ≠ 1 → (l.natAbs : Int) < W.nextLit → t.tried l ∨ t.tried (-l) → OrdLit W v k l)
    (hb : ∀ v, v < W.vars.length → loF (frame W) v ≤ loF (frame W') v ∧ upF (frame W') v ≤ upF (frame W) v) : GI W' [t] := by
  obtain ⟨t', e, q⟩ := h.at_top hl
  injection e with e _
  subst e
  refine GI.top wi ti hl' (fun v k l hh h1 => ⟨fun hd => ?_, fun hd => ?_⟩) (fun l hh => ?_) q.sub
  · have o := ho v k l hh h1 (q.known _ (q.sub _ hd)).2 (Or.inl (q.sub _ hd))
    have := (q.fwd v k l o h1).1 hd
    have := hb v (ord_lt o)
    omega
  · have hk := (q.known _ (q.sub _ hd)).2
    rw [Int.natAbs_neg] at hk
    have o := ho v k l hh h1 hk (Or.inr (q.sub _ hd))
    have := (q.fwd v k l o h1).2 hd
    have := hb v (ord_lt o)
    omega
  · have := q.known l hh
    exact ⟨this.1, by omega⟩

theorem snap_all (hb : BI (frame W)) (hs : ∀ l ∈ W.book.levels.head?, ∀ k, 0 < k → k ≤ l.level → alF (frame W') k = alF (frame W) k ∧ auF (frame W') k = auF (frame W) k) :
    ∀ l ∈ W.book.levels, 0 < l.level → alF (frame W') l.level = alF (frame W) l.level ∧ auF (frame W') l.level = auF (frame W) l.level := by
  intro l hl h0
  have hd := hb.dec
  simp only [frame] at hd
  cases hh : W.book.levels with
  | nil => rw [hh] at hl; cases hl
  | cons y ys =>
    rw [hh] at hl hd
    refine hs y (by rw [hh]; rfl) l.level h0 ?_
    rw [List.map_cons, List.pairwise_cons] at hd
    rcases List.mem_cons.mp hl with rfl | hl
    · exact Nat.le_refl _
    · exact Nat.le_of_lt (hd.1 _ (List.mem_map_of_mem hl))

theorem GI.stay {t' : Told} (h : GI W (t :: ts)) (wi : WI W') (ti : TI W') (hl : W'.book.levels = W.book.levels)
    (hs : ∀ l ∈ W.book.levels.head?, ∀ k, 0 < k → k ≤ l.level → alF (frame W') k = alF (frame W) k ∧ auF (frame W') k = auF (frame W) k)
    (o : Old W.nextLit W W') (k : Kept W W') (hd : TQ W' t' (loF (frame W')) (upF (frame W'))) : GI W' (t' :: ts) := by
  refine ⟨wi, ti, ?_⟩
  rw [hl]
  have hp := h.wi.bi.dec
  exact GS.map (Q := TQ W) (fun _ _ _ q => q.move o k) hp (snap_all h.wi.bi hs) hd h.gs

/-- All calls but `propagate` and `undo`. -/
theorem gi_other {op : Op} (h : GI W ts) (hp : op.pre W) (hf : feedPre ts W op) (hx : op.exec W = .ok (r, W')) (h1 : ∀ cc ls, op ≠ .propagate cc ls) (h2 : op ≠ .undo) :
    GI W' ts := by
  have hlev := op_levels hp hx h.wi h1 h2
  obtain ⟨wi, sr⟩ := step_eff hp hx h.wi
  have ti := h.ti.exec hp hx
  by_cases hl : W.book.levels.length = 1
  · obtain ⟨t, rfl, q⟩ := h.at_top hl
    cases op with
    | addVar lo hi =>
      obtain ⟨_, W1, g1, g2⟩ := SM.bind_ok hx
      obtain ⟨-, rfl⟩ := pure_iff.mp g2
      obtain ⟨v, g3⟩ := discard_iff.mp g1
      unfold addVar at g3
      injection g3 with g3
      obtain ⟨rfl, rfl⟩ := Prod.mk.inj g3
      refine h.top_step wi ti hl (by rw [hlev]; exact hl) (le_refl _) (fun v k l hh _ _ _ => ?_) (fun v hv => ?_)
      · obtain ⟨vs, a, b⟩ := hh
        dsimp only at a
        rw [List.getElem?_append] at a
        split_ifs at a with hlt
        · exact ⟨vs, a, b⟩
        · rw [List.getElem?_singleton] at a
          split_ifs at a
          injection a with a
          subst a
          cases b
      · unfold loF upF frame
        dsimp only
        rw [List.map_append, List.getElem?_append_left (by simpa using hv)]
        exact ⟨le_refl _, le_refl _⟩
    | simple cc l co v r s =>
      obtain ⟨e1, e2⟩ := addSimple_ord h.ti hp.1 hp.2.1 hp.2.2 hx
      have ef := fr_addSimple.fr _ _ _ hx
      refine h.top_step wi ti hl (by rw [hlev]; exact hl) e1 (fun v k m hh a1 a2 a3 => ?_) (fun v _ => by rw [ef]; exact ⟨le_refl _, le_refl _⟩)
      rcases e2 v k m hh a1 a2 with hq | hq
      · exact hq
      · exfalso
        rcases a3 with a3 | a3
        · exact hf.2 t (List.mem_singleton.mpr rfl) m a3 hq
        · refine hf.2 t (List.mem_singleton.mpr rfl) (-m) a3 ((value_neg ?_).mpr hq)
          have := (q.known _ a3).1
          omega
    | propagate cc ls => exact absurd rfl (h1 cc ls)
    | undo => exact absurd rfl h2
    | fresh =>
      rw [(fresh_iff.mp hx).2] at hlev wi ti ⊢
      exact h.top_step wi ti hl (by rw [hlev]; exact hl) (by show W.nextLit ≤ W.nextLit + 1; omega) (fun v k l hh _ _ _ => hh) (fun v _ => ⟨le_refl _, le_refl _⟩)
    | post e =>
      rw [(post_iff.mp hx).2] at hlev wi ti ⊢
      exact h.top_step wi ti hl (by rw [hlev]; exact hl) (le_refl _) (fun v k l hh _ _ _ => hh) (fun v _ => ⟨le_refl _, le_refl _⟩)
    | _ =>
      have o : Old W.nextLit W W' := by
        refine (kw_exec old_prim.toPrimU (fun W n h => ⟨h.ti.other rfl rfl rfl, h.next, h.old⟩) ?_ ?_ ?_ ?_).kw _ _ _ hx (Old.refl h.ti) <;> intros <;> first | contradiction | (intro e; cases e)
      have tg : Tight (frame W) (frame W') := by
        refine (kw_execD (tight_prim (F := frame W)).toPrimD (fun W n h => h.trans (Tight.of (F := frame W) (F' := frame { W with book.trailOffset := n }) rfl)) ?_ ?_ ?_ ?_ ?_).kw _ _ _ hx (Tight.refl _) <;> intros <;> first | contradiction | (intro e; cases e)
      exact h.top_step wi ti hl (by rw [hlev]; exact hl) o.next (fun v k l hh a1 a2 _ => o.old v k l hh a1 a2) (fun v _ => tg.2 v)
  · have hd := h.wi.level_deep hl
    obtain ⟨t, ts', rfl, q⟩ := h.gs.head
    have o : Old W.nextLit W W' := (kw_deep (old_prim (N := W.nextLit) (W0 := W)).toPrim0 hp hf hd hl h1 h2).kw _ _ _ hx (Old.refl h.ti)
    have k : Kept W W' := (kw_deep (kept_prim (W0 := W)).toPrim0 hp hf hd hl h1 h2).kw _ _ _ hx (Kept.refl h.ti)
    have sb : (frame W').1 = (frame W).1 := (kw_deep (sameB_prim (X := (frame W).1)) hp hf hd hl h1 h2).kw _ _ _ hx rfl
    obtain ⟨e1, e2⟩ := fr_bounds sb
    refine h.stay wi ti hlev ?_ o k (by rw [e1, e2]; exact q.move o k)
    cases sr with
    | same _ s => exact fun l hl => (s l hl).2
    | push l e =>
      have e : W'.book.levels = l :: W.book.levels := e
      rw [hlev] at e
      have := congrArg List.length e
      simp at this
    | pop l e =>
      have e : W.book.levels = l :: W'.book.levels := e
      rw [hlev] at e
      have := congrArg List.length e
      simp at this

/-- Backtracking. -/
theorem gi_undo (h : GI W ts) (hx : Op.undo.exec W = .ok (r, W')) : GI W' ts.tail := by
  obtain ⟨wi, -⟩ := step_eff (op := .undo) trivial hx h.wi
  have ti := h.ti.exec (op := .undo) trivial hx
  obtain ⟨_, W1, h1, h2⟩ := SM.bind_ok hx
  obtain ⟨-, rfl⟩ := pure_iff.mp h2
  obtain ⟨l, ls, e1, e2, e3, e4, e5, e6, e7, e8, e9⟩ := solverUndo_eff h1 h.wi.bi
  have o := (kw_solverUndo (old_prim (N := W.nextLit) (W0 := W)).toPrimU.toPrimP).kw _ _ _ h1 (Old.refl h.ti)
  have k := (kw_solverUndo (kept_prim (W0 := W))).kw _ _ _ h1 (Kept.refl h.ti)
  have hp := h.wi.bi.dec
  have e1 : W.book.levels = l :: ls := e1
  have e4 : W'.book.levels = ls := e4
  have hg := h.gs
  have wl := wi.len_pos
  simp only [frame] at hp
  rw [e1] at hg hp
  rw [e4] at wl
  match ls, ts, hg with
  | l' :: ls, t :: t' :: ts, hg =>
    refine ⟨wi, ti, ?_⟩
    rw [e4, e7, e8]
    rw [List.map_cons, List.pairwise_cons] at hp
    obtain ⟨x, y, exy, q⟩ := hg.2.head
    injection exy with ex ey
    subst ex ey
    refine GS.map (Q := TQ W) (fun _ _ _ q => q.move o k) hp.2 (fun m hm _ => ?_) (q.move o k) hg.2
    exact e9 m.level (Nat.le_of_lt (hp.1 _ (List.mem_map_of_mem hm)))
  | [], _, _ => exact absurd wl (by simp)
  | _ :: _, [], hg => simp [GS] at hg
  | _ :: _, [_], hg => simp [GS] at hg

theorem gi_lits {ls : List Int} (h : GI W (t :: ts)) (hn : ∀ l ∈ ls, l ≠ 0 ∧ (l.natAbs : Int) < W.nextLit) (hl : W.level ≤ cc.level)
    (hx : propagateLits cc ls W = .ok (r, W')) : GI W' (t.add r ls :: ts) := by
  have ha := (keep_propagateLits (L := W.book.levels) (A := (alF (frame W), auF (frame W), (frame W).1.length))).keep _ _ _ hx
    ⟨h.wi.bi, rfl, fun _ _ _ _ _ => ⟨rfl, rfl⟩, rfl⟩
  have hlev : W'.book.levels = W.book.levels := ha.lev
  have wi : WI W' := ⟨ha.bi, by rw [hlev]; exact h.wi.base⟩
  have o := (kw_propagateLits (old_prim (N := W.nextLit) (W0 := W)).toPrimU.toPrimD).kw _ _ _ hx (Old.refl h.ti)
  have tg := (kw_propagateLits (tight_prim (F := frame W)).toPrimD).kw _ _ _ hx (Tight.refl _)
  have on := o.next
  obtain ⟨t0, ts0, e, q⟩ := h.gs.head
  injection e with e1 e2
  subst e1 e2
  have fwd : ∀ v k l, OrdLit W' v k l → l.natAbs ≠ 1 → ((t.add r ls).done l → upF (frame W') v ≤ k) ∧ ((t.add r ls).done (-l) → k < loF (frame W') v) := by
    intro v k l hh h1
    refine ⟨fun hd => ?_, fun hd => ?_⟩
    · rcases hd with hd | ⟨rfl, hd⟩
      · have := (q.fwd v k l (o.old v k l hh h1 (q.known l (q.sub l hd)).2) h1).1 hd
        have := tg.2 v
        omega
      · exact (propagateLits_fwd h.ti (fun l hl => (hn l hl).2) hx l hd h1 v k).1 hh
    · rcases hd with hd | ⟨rfl, hd⟩
      · have := (q.known _ (q.sub _ hd)).2
        rw [Int.natAbs_neg] at this
        have := (q.fwd v k l (o.old v k l hh h1 this) h1).2 hd
        have := tg.2 v
        omega
      · refine (propagateLits_fwd h.ti (fun l hl => (hn l hl).2) hx (-l) hd (by rwa [Int.natAbs_neg]) v k).2 ?_
        rwa [Int.neg_neg]
  have known : ∀ l, (t.add r ls).tried l → l ≠ 0 ∧ (l.natAbs : Int) < W'.nextLit := by
    intro l hh
    rcases hh with hh | hh
    · have := q.known l hh
      exact ⟨this.1, by omega⟩
    · have := hn l hh
      exact ⟨this.1, by omega⟩
  have sub : ∀ l, (t.add r ls).done l → (t.add r ls).tried l := by
    rintro l (hh | ⟨-, hh⟩)
    · exact Or.inl (q.sub l hh)
    · exact Or.inr hh
  by_cases h1 : W.book.levels.length = 1
  · obtain ⟨t1, e, -⟩ := h.at_top h1
    injection e with _ e
    subst e
    exact GI.top wi o.ti (by rw [hlev]; exact h1) fwd known sub
  · have hd := h.wi.level_deep h1
    obtain ⟨k, p⟩ := propagateLits_deep h.ti h.wi.bi (by omega) hd hx
    have q' := q.move o k
    refine h.stay wi o.ti hlev ha.snap o k ⟨fwd, fun v => ⟨fun hh => ?_, fun hh => ?_⟩, known, sub⟩
    · rcases (p v).1 with e | ⟨l, hl, e⟩
      · rw [e] at hh ⊢
        exact ((q'.rev v).1 hh).imp fun l hl => ⟨hl.1, Or.inl hl.2⟩
      · exact ⟨l, e, Or.inr hl⟩
    · rcases (p v).2 with e | ⟨l, hl, e⟩
      · rw [e] at hh ⊢
        exact ((q'.rev v).2 hh).imp fun l hl => ⟨hl.1, Or.inl hl.2⟩
      · refine ⟨-l, e, Or.inr ?_⟩
        rw [Int.neg_neg]; exact hl

theorem GS.cons {Q : Told → (Nat → Int) → (Nat → Int) → Prop} {F : List VarState × Book} {l : Lvl} {t' : Told} {lo up : Nat → Int} : ∀ {ls : List Lvl}, ls ≠ [] →
    Q t lo up → GS Q F ls (t' :: ts) (alF F l.level) (auF F l.level) → GS Q F (l :: ls) (t :: t' :: ts) lo up
  | [], hn, _, _ => absurd rfl hn
  | _ :: _, _, h, h' => ⟨h, h'⟩

theorem gi_push {k : Nat} {u : Unit} (h : GI W (t :: ts)) (hs : W.level < k → W.settled) (hx : pushLevel k W = .ok (u, W')) :
    W'.nextLit = W.nextLit ∧ W'.level ≤ max W.level k ∧
    (W'.book.levels.length = W.book.levels.length ∧ GI W' (t :: ts) ∨ W'.book.levels.length = W.book.levels.length + 1 ∧ GI W' (t :: t :: ts)) := by
  obtain ⟨hb, sr, he⟩ := pushLevel_eff hx h.wi.bi hs
  by_cases hk : k ≤ W.level
  · rw [he hk]
    exact ⟨rfl, Nat.le_max_left .., Or.inl ⟨rfl, h⟩⟩
  have hx' : ∃ l, W' = { W with book := { W.book with levels := l :: W.book.levels } } ∧ l.level = k := by
    unfold pushLevel at hx
    obtain ⟨l, W1, h1, h2⟩ := SM.bind_ok hx
    obtain ⟨el, rfl⟩ := curLevel_level h1
    unfold whenS at h2
    split at h2
    · obtain rfl := modify_iff.mp h2
      exact ⟨_, rfl, rfl⟩
    · rename_i hc
      simp only [decide_eq_true_eq] at hc
      omega
  obtain ⟨l, rfl, el⟩ := hx'
  refine ⟨rfl, ?_, Or.inr ⟨by simp, ?_⟩⟩
  · show l.level ≤ _
    rw [el]; exact Nat.le_max_right ..
  have wi : WI { W with book := { W.book with levels := l :: W.book.levels } } := by
    refine ⟨hb, ?_⟩
    have := h.wi.base
    show (l :: W.book.levels).getLast? = _
    rw [List.getLast?_cons, this]
    rfl
  have ti : TI { W with book := { W.book with levels := l :: W.book.levels } } := h.ti.other rfl rfl rfl
  refine ⟨wi, ti, ?_⟩
  have hg := h.gs
  obtain ⟨t0, ts0, e, q⟩ := hg.head
  injection e with e1 e2
  subst e1 e2
  have hmv : ∀ t lo up, TQ W t lo up → TQ { W with book := { W.book with levels := l :: W.book.levels } } t lo up := fun _ _ _ q => ⟨q.fwd, q.rev, q.known, q.sub⟩
  cases sr with
  | same e =>
    have e : l :: W.book.levels = W.book.levels := e
    have := congrArg List.length e
    simp at this
  | pop l' e =>
    have e : W.book.levels = l' :: l :: W.book.levels := e
    have := congrArg List.length e
    simp only [List.length_cons] at this
    omega
  | push l' e _ _ h0 hlt s a1 a2 =>
    have e : l :: W.book.levels = l' :: W.book.levels := e
    injection e with e
    subst e
    have hp := h.wi.bi.dec
    have tail : GS (TQ { W with book := { W.book with levels := l :: W.book.levels } }) (frame { W with book := { W.book with levels := l :: W.book.levels } }) W.book.levels (t :: ts)
        (loF (frame W)) (upF (frame W)) := by
      refine GS.map (Q := TQ W) hmv hp ?_ (hmv _ _ _ q) hg
      exact snap_all h.wi.bi s
    have hne := h.wi.len_pos
    show GS _ _ (l :: W.book.levels) (t :: t :: ts) _ _
    rw [← a1, ← a2] at tail
    exact GS.cons (by intro e; rw [e] at hne; cases hne) (hmv _ _ _ q) tail

theorem gi_propagate {ls : List Int} (h : GI W ts) (hp : (Op.propagate cc ls).pre W) (hf : feedPre ts W (.propagate cc ls)) (hx : (Op.propagate cc ls).exec W = .ok (r, W')) :
    GI W' (toldAfter (.propagate cc ls) W W' r ts) := by
  obtain ⟨t, ts', rfl, q⟩ := h.gs.head
  obtain ⟨_, W1, h1, h2⟩ := SM.bind_ok hx
  obtain ⟨en, el, hc⟩ := gi_push h hp h1
  have hf1 : W.level ≤ cc.level := hf.1
  have hf2 : ∀ l ∈ ls, l ≠ 0 ∧ (l.natAbs : Int) < W1.nextLit := by rw [en]; exact hf.2
  have hlv : W1.level ≤ cc.level := by omega
  unfold toldAfter
  dsimp only
  rcases hc with ⟨e, g⟩ | ⟨e, g⟩
  · have ha := (keep_propagateLits (L := W1.book.levels) (A := (alF (frame W1), auF (frame W1), (frame W1).1.length))).keep _ _ _ h2
      ⟨g.wi.bi, rfl, fun _ _ _ _ _ => ⟨rfl, rfl⟩, rfl⟩
    have : W'.book.levels = W1.book.levels := ha.lev
    rw [if_neg (by rw [this, e]; omega)]
    exact gi_lits g hf2 hlv h2
  · have ha := (keep_propagateLits (L := W1.book.levels) (A := (alF (frame W1), auF (frame W1), (frame W1).1.length))).keep _ _ _ h2
      ⟨g.wi.bi, rfl, fun _ _ _ _ _ => ⟨rfl, rfl⟩, rfl⟩
    have : W'.book.levels = W1.book.levels := ha.lev
    rw [if_pos (by rw [this, e]; omega)]
    exact gi_lits g hf2 hlv h2

theorem gi_step {op : Op} (h : GI W ts) (hp : op.pre W) (hf : feedPre ts W op) (hx : op.exec W = .ok (r, W')) : GI W' (toldAfter op W W' r ts) := by
  have other : (∀ cc ls, op ≠ .propagate cc ls) → op ≠ .undo → GI W' (toldAfter op W W' r ts) := by
    intro h1 h2
    have := gi_other h hp hf hx h1 h2
    obtain ⟨t, ts', rfl, -⟩ := h.gs.head
    cases op with
    | propagate cc ls => exact absurd rfl (h1 cc ls)
    | undo => exact absurd rfl h2
    | _ => exact this
  cases op with
  | propagate cc ls => exact gi_propagate h hp hf hx
  | undo =>
    have := gi_undo h hx
    obtain ⟨t, ts', rfl, -⟩ := h.gs.head
    exact this
  | _ => exact other (by intros; simp) (by simp)

theorem gi_init {n : Int} (h : 1 < n) : GI (World.init n) [Told.none] := by
  refine GI.top (init_wi n) (TI.init h) rfl (fun v k l hh => ?_) (fun l hh => hh.elim) (fun l hh => hh)
  obtain ⟨vs, hv, -⟩ := hh
  cases hv

theorem gi_fed {ops : List Op} {ts' : List Told} (h : Fed ops W ts W' ts') : GI W ts → GI W' ts' := by
  induction h with
  | nil => exact id
  | cons hp hf hx _ ih => exact fun hi => ih (gi_step hi hp hf hx)

theorem Fed.run {ops : List Op} {ts' : List Told} (h : Fed ops W ts W' ts') : Run ops W W' := by
  induction h with
  | nil => exact .nil _
  | cons hp hf hx _ ih => exact .cons hp hx ih

end Clingcon
