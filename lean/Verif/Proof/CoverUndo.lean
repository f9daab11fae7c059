import Verif.Proof.CoverStep

/-! Violated linear constraints are not missed: opening and closing levels, and sequences of calls. -/
set_option linter.unusedSimpArgs false
set_option linter.unusedVariables false
namespace Clingcon
open Spec VarState

variable {α γ : Type} {W W' : World} {cc : CC} {n : Nat} {F F' : List VarState × Book} {f : Bool} {g : Int → Prop} {T : List Nat}
variable {G : Ghost} {r : Bool} {gs : List (Int → Prop)}

/-- The sums of constraints that are not inactive. -/
theorem BI.sums (hb : BI F) (hs : Still F) {c : CState} (hc : F.2.cs[n]? = some c) (ha : c.alive = true) (hi : c.inactive = 0) : Counted c (loF F) (upF F) := by
  obtain ⟨z1, z2⟩ := hb.quiet hs
  have := (hb.track n c hc ha).counted ?_
  · have e1 : (viewF F).dl = loF F := by funext v; simp only [viewF]; rw [z1]; simp
    have e2 : (viewF F).du = upF F := by funext v; simp only [viewF]; rw [z2]; simp
    rw [← e1, ← e2]; exact this
  · intro s _
    cases hx : c.removableAt s.1 with
    | false => rfl
    | true => have := removableAt_pos hx; omega

theorem low_iff {c : CState} {b : Book} {lo up : Nat → Int} (h : Counted c lo up) : Low f b c ↔ lowC f b.minimizeBound lo up c.con := by
  unfold Counted Mid at h
  unfold Low
  cases hcon : c.con with
  | sum l r es =>
    rw [hcon] at h
    simp [signSum] at h
    show c.lower ≤ r ↔ lowSum lo up es ≤ r
    rw [h.1]
  | minimize a es =>
    rw [hcon] at h
    simp [signSum] at h
    show (f = true → ∀ v, b.minimizeBound = some v → c.lower ≤ v ∨ c.upper ≤ v) ↔ (f = true → ∀ v, b.minimizeBound = some v → lowSum lo up es ≤ v ∨ upSum lo up es ≤ v)
    rw [h.1, h.2]
  | distinct l es => exact Iff.rfl
  | disjoint l es => exact Iff.rfl
  | nonlinear l ca x y cb z r => exact Iff.rfl

theorem lowC.weak {mb : Option Int} {lo up : Nat → Int} {con : Constr} (h : lowC true mb lo up con) : lowC f mb lo up con := by
  cases con with
  | sum l r es => exact h
  | minimize a es => exact fun _ => h rfl
  | distinct l es => trivial
  | disjoint l es => trivial
  | nonlinear l ca x y cb z r => trivial

/-! ### Undoing a level -/

/-- What undoing bounds keeps. -/
def uview (b : Book) := (b.cs.map acon, b.cs.map flag, b.inactive, b.todo, mview b)

theorem keepU_undoLowers {V} : ∀ {vs : List Nat}, Keep (fun F => uview F.2 = V) (undoLowers vs)
  | [] => Keep.fr Fr.pure
  | v :: vs => by
    unfold undoLowers undoLowerVar
    refine Keep.bind ⟨fun W u W' h hk => ?_⟩ (fun _ => keepU_undoLowers)
    simp only [smok] at h
    obtain ⟨y, W1, ⟨hv, rfl⟩, y', W2, ⟨hp, rfl⟩, _, W3, rfl, rfl⟩ := h
    rw [← hk]
    unfold uview frame mview
    simp only
    split_ifs
    · rw [undoWatches_acon, undoWatches_flag]
    · rfl

theorem keepU_undoUppers {V} : ∀ {vs : List Nat}, Keep (fun F => uview F.2 = V) (undoUppers vs)
  | [] => Keep.fr Fr.pure
  | v :: vs => by
    unfold undoUppers undoUpperVar
    refine Keep.bind ⟨fun W u W' h hk => ?_⟩ (fun _ => keepU_undoUppers)
    simp only [smok] at h
    obtain ⟨y, W1, ⟨hv, rfl⟩, y', W2, ⟨hp, rfl⟩, _, W3, rfl, rfl⟩ := h
    rw [← hk]
    unfold uview frame mview
    simp only
    split_ifs
    · rw [undoWatches_acon, undoWatches_flag]
    · rfl

theorem undo_info {u : Unit} (h : solverUndo W = .ok (u, W')) : ∃ l ls, W.book.levels = l :: ls ∧ W'.book.inactive = W.book.inactive.take l.inactiveOff ∧
    W'.book.cs.map acon = W.book.cs.map acon ∧ mview W'.book = mview W.book ∧
    ∀ (n : Nat) c', W'.book.cs[n]? = some c' → c'.todo = true → ∃ c, W.book.cs[n]? = some c ∧ c.todo = true ∧ n ∉ W.book.todo := by
  unfold solverUndo levelUndo at h
  simp only [smok] at h
  obtain ⟨l, W1, ⟨hl, rfl⟩, _, W2, ⟨hpos, rfl⟩, _, W3, h3, h⟩ := h
  obtain ⟨W4, W5, ⟨rfl, rfl⟩, _, W6, h6, _, W7, rfl, W8, W9, ⟨rfl, rfl⟩, _, W10, h10, _, W11, rfl, rfl⟩ := h3
  obtain ⟨_, W12, rfl, _, W13, ⟨-, rfl⟩, -⟩ := h
  obtain ⟨ls, hls⟩ : ∃ ls, W5.book.levels = l :: ls := by
    cases hc : W5.book.levels with
    | nil => rw [hc] at hl; cases hl
    | cons x xs => rw [hc] at hl; injection hl with hl; subst hl; exact ⟨xs, rfl⟩
  have u1 : uview W6.book = uview W5.book := (keepU_undoLowers (V := uview W5.book)).keep _ _ _ h6 rfl
  have u2 : uview W10.book = uview W5.book := (keepU_undoUppers (V := uview W5.book)).keep _ _ _ h10 u1
  unfold uview at u2
  simp only [Prod.mk.injEq] at u2
  obtain ⟨x1, x2, x3, x4, x5⟩ := u2
  refine ⟨l, ls, hls, ?_, ?_, ?_, ?_⟩
  · show W10.book.inactive.take l.inactiveOff = _
    rw [x3]
  · show (Book.unmarkTodo (Book.activate W10.book.cs _) _).map acon = _
    rw [unmarkTodo_acon, activate_acon, x1]
  · exact x5
  · intro n c' hc' ht
    have hc' : (Book.unmarkTodo (Book.activate W10.book.cs (W10.book.inactive.drop l.inactiveOff)) W10.book.todo)[n]? = some c' := hc'
    rw [unmarkTodo_get] at hc'
    cases h1 : (Book.activate W10.book.cs (W10.book.inactive.drop l.inactiveOff))[n]? with
    | none => rw [h1] at hc'; cases hc'
    | some d =>
      rw [h1] at hc'
      injection hc' with hc'
      split_ifs at hc' with hm
      · subst hc'; cases ht
      · subst hc'
        have h2 : (W5.book.cs.map flag)[n]? = some (flag d) := by
          rw [← x2, ← activate_flag (ns := W10.book.inactive.drop l.inactiveOff), List.getElem?_map, h1]; rfl
        rw [List.getElem?_map] at h2
        cases hc : W5.book.cs[n]? with
        | none => rw [hc] at h2; cases h2
        | some c =>
          rw [hc] at h2
          injection h2 with h2
          have : c.todo = d.todo := congrArg Prod.snd h2
          exact ⟨c, rfl, this.trans ht, by rw [← x4]; exact hm⟩

theorem cuts_sub {off : Lvl → Nat} : ∀ {ls : List Lvl} {u : List α} {s : Nat × List α}, s ∈ cuts off ls u → ∀ x ∈ s.2, x ∈ u
  | [], _, _, h => by cases h
  | l :: ls, u, s, h => by
    intro x hx
    unfold cuts at h
    rcases List.mem_cons.mp h with rfl | h
    · exact List.mem_of_mem_drop hx
    · exact List.mem_of_mem_take (cuts_sub h x hx)

theorem ci_undo (h : CI W G) (hx : Op.undo.exec W = .ok (r, W')) (hl : Learns .undo W W' r G.known gs) : CI W' ⟨r, freshAfter W G.fresh .undo, gs⟩ := by
  have hx0 := hx
  obtain ⟨u, W1, h1, h2⟩ := SM.bind_ok hx
  obtain ⟨rfl, rfl⟩ := pure_iff.mp h2
  obtain ⟨l, ls, hls, hpos, bi', hlv, still, htodo, hlo, hup, hk⟩ := solverUndo_eff h1 h.wi.bi
  obtain ⟨l', ls', hls', hin, hac, hmv, hfl⟩ := undo_info h1
  rw [hls] at hls'
  obtain ⟨rfl, rfl⟩ := List.cons.inj hls'
  have wi' := (step_eff (op := .undo) trivial hx0 h.wi).1
  have hmb : W'.book.minimizeBound = W.book.minimizeBound := congrArg Prod.fst hmv
  have hml : W'.book.minimizeLevel = W.book.minimizeLevel := congrArg Prod.snd hmv
  have hWl : W.level = l.level := by unfold World.level; rw [hls]
  have marks' : Marks W'.book.todo (frame W') := by
    refine ⟨fun m c' hc' ht => ?_, fun m c' hc' hi => ?_⟩
    · obtain ⟨c, a1, a2, a3⟩ := hfl m c' hc' ht
      exact absurd (h.marks.1 m c a1 a2) a3
    · obtain ⟨s, hs, hm, -⟩ := bi'.inac' m c' hc' hi
      exact cuts_sub hs m hm
  have h0 := h.snaps
  have h9 := h.sane
  rw [hls] at h0
  generalize hk0 : G.known = k at hl h0 h9
  cases hl with
  | stay e => rw [hlv, hls] at e; simp at e
  | deeper e => rw [hlv, hls] at e; simp at e; omega
  | @back g g0 gs e =>
    cases ls with
    | nil => exact h0.elim
    | cons l2 ls =>
    obtain ⟨op, sn⟩ := h0
    refine ⟨wi', marks', ?_, fun x hx => h9 x (List.mem_cons_of_mem _ hx), ?_⟩
    · show Snaps (frame W') W'.book.levels (g0 :: gs)
      rw [hlv]
      have hd := h.wi.bi.dec
      simp only [frame] at hd
      rw [hls, List.map_cons, List.pairwise_cons] at hd
      refine sn.congr hd.2 (fun x hx hx0 g1 ho => ?_)
      have hxl : x.level < l.level := hd.1 _ (List.mem_map_of_mem hx)
      have hcut : x.inactiveOff ≤ (W.book.inactive.take l.inactiveOff).length := by
        have hcI := h.wi.bi.cutI
        simp only [frame] at hcI
        rw [hls] at hcI
        exact cutOK_mem hcI.2 x hx
      refine Opened.congr (F := frame W) (F' := frame W') hac ?_ (hk _ (Nat.le_of_lt hxl)).1 (hk _ (Nat.le_of_lt hxl)).2 ?_ ho
      · show W'.book.inactive.take _ = W.book.inactive.take _
        rw [hin, List.take_take]
        rw [List.length_take] at hcut
        rw [Nat.min_eq_left (by omega)]
      · intro v a b
        exact ⟨hmb.symm.trans a, by have b : W'.book.minimizeLevel < x.level := b; rw [hml] at b; exact b⟩
    · intro _ g1 hg1
      injection hg1 with hg1
      subst hg1
      have e1 : freshAfter W G.fresh .undo = decide (W.book.minimizeLevel < l.level) := by unfold freshAfter; rw [hWl]
      rw [e1]
      refine ⟨fun m c' h1 h2 h3 h4 => ?_, fun m c' h1 h2 h3 h4 => ?_⟩
      · obtain ⟨c, a1, a2, a3⟩ := acon_get hac h1
        have h4 : m ∉ W'.book.inactive := h4
        have hz : c'.inactive = 0 := by
          by_contra hne
          exact h4 (marks'.2 m c' h1 (by omega))
        have hc := bi'.sums still h1 h2 hz
        rw [low_iff hc]
        have := (op m c a1 (a2 ▸ h2)).1 (by rw [hin] at h4; exact h4)
        show lowC _ W'.book.minimizeBound _ _ c'.con
        rw [hlo, hup, hmb, a3]
        exact this
      · obtain ⟨c, a1, a2, a3⟩ := acon_get hac h1
        have h4 : m ∈ W'.book.inactive := h4
        have := (op m c a1 (a2 ▸ h2)).2 (by rw [hin] at h4; exact h4)
        rw [hlo, hup, a3]
        exact this

/-! ### Propagation -/

theorem ci_propagate {ls : List Int} (h : CI W G) (hp : (Op.propagate cc ls).pre W) (hx : (Op.propagate cc ls).exec W = .ok (r, W')) (hok : G.ok = true)
    (hs : searchPre G W (.propagate cc ls))
    (hl : Learns (.propagate cc ls) W W' r G.known gs) : CI W' ⟨r, freshAfter W G.fresh (.propagate cc ls), gs⟩ := by
  have hx0 := hx
  have st : Steady (W.book.cs.map acon) W.book.inactive (W.book.minimizeBound, W.book.minimizeLevel) (frame W') :=
    keepT_solverPropagate.keep W r W' hx ⟨rfl, List.prefix_rfl, rfl⟩
  obtain ⟨wi', rel⟩ := step_eff hp hx h.wi
  have hx : solverPropagate cc ls W = .ok (r, W') := hx
  unfold solverPropagate at hx
  obtain ⟨_, W1, h1, h2⟩ := SM.bind_ok hx
  have hp1 := h1
  unfold pushLevel at h1
  obtain ⟨l, W2, h3, h4⟩ := SM.bind_ok h1
  obtain ⟨hl', rfl⟩ := curLevel_iff.mp h3
  have hlev : W2.level = l.level := by
    unfold World.level
    cases hh : W2.book.levels with
    | nil => rw [hh] at hl'; cases hl'
    | cons x xs => rw [hh] at hl'; injection hl' with hl'; subst hl'; rfl
  unfold whenS at h4
  split at h4
  · rename_i hlt
    have hlt : W2.level < cc.level := by rw [hlev]; simpa using hlt
    obtain rfl := modify_iff.mp h4
    have m2 := (propagateLits_cov (f := G.fresh) (g := fun _ => True) h2 h.marks).1
    have c2 := fun g => (propagateLits_cov (f := G.fresh) (g := g) h2 h.marks).2
    have hset := hp hlt
    have hfresh := hs.2 hlt
    have b1 := (pushLevel_eff hp1 h.wi.bi hp).1
    have elv : W'.book.levels = (⟨cc.level, W2.book.undoLower.length, W2.book.undoUpper.length, W2.book.inactive.length, W2.book.removed.length⟩ : Lvl) :: W2.book.levels := by
      have := (keep_propagateLits (cc := cc) (ls := ls) (L := _ :: W2.book.levels) (A := (_, _, _))).keep _ _ _ h2 ⟨b1, rfl, fun _ _ _ _ _ => ⟨rfl, rfl⟩, rfl⟩
      exact this.lev
    cases rel with
    | same e => 
      have e : W'.book.levels = W2.book.levels := e
      rw [elv] at e
      exact absurd (congrArg List.length e) (by simp)
    | pop x e =>
      have e : W2.book.levels = x :: W'.book.levels := e
      rw [elv] at e
      exact absurd (congrArg List.length e) (by simp; omega)
    | push x e hlen sett x0 xlt old alo aup =>
      have e : W'.book.levels = x :: W2.book.levels := e
      rw [elv] at e
      obtain ⟨rfl, -⟩ := List.cons.inj e
      have h0 := h.snaps
      have h9 := h.sane
      have hcov := h.cov hok
      generalize hk0 : G.known = k at hl h0 h9 hcov
      cases hl with
      | stay e => rw [elv] at e; simp at e
      | back e => rw [elv] at e; simp at e; omega
      | @deeper g g' gs e hg hg1 =>
        have hc := hcov g rfl
        rw [hfresh] at hc
        have so := Snaps.steady (F := frame W2) (F' := frame W') h.wi.bi old st.1 st.2.1 (by
          intro v l _ hv hlt
          obtain ⟨x1, x2⟩ := Prod.mk.inj st.2.2
          rw [x1] at hv
          rw [x2] at hlt
          exact ⟨hv, hlt⟩) h0
        refine ⟨wi', m2, ?_, ?_, ?_⟩
        · show Snaps (frame W') W'.book.levels (g' :: g :: gs)
          rw [elv]
          cases hh : W2.book.levels with
          | nil => exact absurd hh h.wi.ne
          | cons l2 ls2 =>
          have so : Snaps (frame W') W2.book.levels (g :: gs) := so
          rw [hh] at so
          refine ⟨?_, so⟩
          intro m c' a1 a2
          obtain ⟨c, d1, d2, d3⟩ := acon_get (cs := W2.book.cs) (cs' := W'.book.cs) st.1 a1
          obtain ⟨x1, x2⟩ := Prod.mk.inj st.2.2
          have ht : W'.book.inactive.take W2.book.inactive.length = W2.book.inactive :=
            (take_prefix st.2.1 (Nat.le_refl _)).trans (List.take_length ..)
          have hal : c.alive = true := d2 ▸ a2
          constructor
          · intro hn
            have hn : m ∉ W'.book.inactive.take W2.book.inactive.length := hn
            rw [ht] at hn
            have hz : c.inactive = 0 := by
              by_contra hne
              exact hn (h.marks.2 m c d1 (by omega))
            have hcn := h.wi.bi.sums sett.toStill d1 hal hz
            have := (low_iff hcn).mp (hc.1 m c d1 hal (by show m ∉ W2.book.todo; rw [hset.2]; simp) hn)
            rw [d3, alo, aup, x1]
            exact this.weak
          · intro hn
            have hn : m ∈ W'.book.inactive.take W2.book.inactive.length := hn
            rw [ht] at hn
            rw [d3, alo, aup]
            exact hc.2 m c d1 hal trivial hn
        · intro x hx
          rcases List.mem_cons.mp hx with rfl | hx
          · exact hg1
          · exact h9 x hx
        · intro _ x hx
          injection hx with hx
          subst hx
          refine Cov.learn hg ?_
          refine c2 g ?_
          show Cov G.fresh g (frame W2)
          rw [hfresh]
          exact hc
  · rename_i hlt
    obtain ⟨-, rfl⟩ := pure_iff.mp h4
    have m2 := (propagateLits_cov (f := G.fresh) (g := fun _ => True) h2 h.marks).1
    have c2 := fun g => (propagateLits_cov (f := G.fresh) (g := g) h2 h.marks).2
    have elv : W'.book.levels = W1.book.levels := by
      have := (keep_propagateLits (cc := cc) (ls := ls) (L := W1.book.levels) (A := (_, _, _))).keep _ _ _ h2 ⟨h.wi.bi, rfl, fun _ _ _ _ _ => ⟨rfl, rfl⟩, rfl⟩
      exact this.lev
    refine h.steady hp hx0 (by rw [elv]) st hl m2 hok ?_
    intro _ g g' _ hg _ _ hc
    exact Cov.learn hg (c2 g hc)

/-! ### Sequences of calls -/

theorem keepF_splitFirst {P : List VarState × Book → Prop} (hP : ∀ vs b k, P (vs, b) → P (vs, { b with splitLast := k })) : ∀ {vs : List Nat}, Keep P (splitFirst cc vs)
  | [] => Keep.fr Fr.pure
  | v :: vs => by
    unfold splitFirst
    refine Keep.bind (Keep.fr fr_splitVar) (fun b => ?_)
    split
    · refine Keep.bind ⟨fun W u W' h hp => ?_⟩ (fun _ => Keep.fr Fr.pure)
      obtain rfl := modify_iff.mp h
      exact hP _ _ _ hp
    · exact keepF_splitFirst hP

theorem keepF_solverCheckFull {P : List VarState × Book → Prop} (hP : ∀ vs b k, P (vs, b) → P (vs, { b with splitLast := k })) {b : Bool} : Keep P (solverCheckFull cc b) := by
  unfold solverCheckFull
  refine Keep.bind (Keep.fr (by fr_auto)) (fun W => ?_)
  dsimp only
  refine Keep.bind ?_ (fun s => ?_)
  · split
    · exact Keep.fr fr_splitEach
    · exact keepF_splitFirst hP
  · exact Keep.fr (by fr_auto)

theorem ci_step {op : Op} (h : CI W G) (hp : op.pre W) (hs : searchPre G W op) (hx : op.exec W = .ok (r, W')) (hl : Learns op W W' r G.known gs) :
    CI W' ⟨r, freshAfter W G.fresh op, gs⟩ := by
  have hAt : At W.book.levels (alF (frame W), auF (frame W), (frame W).1.length) (frame W) := ⟨h.wi.bi, rfl, fun _ _ _ _ _ => ⟨rfl, rfl⟩, rfl⟩
  have fr : ∀ {α : Type} {x : SM α} {a : α} {W' : World} (hf : Fr x), x W = .ok (a, W') → frame W' = frame W := fun hf h => hf.fr _ _ _ h
  have ok : op ≠ .undo → G.ok = true := fun hne => hs.1.resolve_right hne
  have steady : ∀ {x : SM Bool} {W' : World} {r : Bool}, (∀ K I M, Keep (Steady K I M) x) → x W = .ok (r, W') →
      Steady (W.book.cs.map acon) W.book.inactive (W.book.minimizeBound, W.book.minimizeLevel) (frame W') :=
    fun hk h => (hk _ _ _).keep _ _ _ h ⟨rfl, List.prefix_rfl, rfl⟩
  cases op with
  | addVar lo hi => exact ci_addVar h hp hx (ok (by simp)) hl
  | addConstraint c => exact ci_addConstraint h hp hx (ok (by simp)) hl
  | removeConstraint n => exact ci_removeConstraint h hp hx (ok (by simp)) hl
  | removeConstraints rem => exact ci_removeConstraints h hp hx (ok (by simp)) hl
  | updateMinimize n l b => exact ci_updateMinimize h hp hx hs (ok (by simp)) hl
  | update n => exact ci_update h hp hx (ok (by simp)) hl
  | undo => exact ci_undo h hx hl
  | propagate cc ls => exact ci_propagate h hp hx (ok (by simp)) hs hl
  | enable =>
    have hx0 := hx
    obtain ⟨-, rfl⟩ := enable_iff.mp hx
    exact h.top hp hx0 hp hp hl h.marks (ok (by simp)) rfl (fun g hcv => hcv)
  | fresh => exact h.fr (fr fr_fresh hx) hl (ok (by simp)) rfl
  | post e => exact h.fr (fr fr_post hx) hl (ok (by simp)) rfl
  | literal cc v x => exact h.fr (fr (Fr.bind (Fr.discard fr_getLiteral) (fun _ => Fr.pure)) hx) hl (ok (by simp)) rfl
  | updLiteral cc v x t => exact h.fr (fr (Fr.bind (Fr.discard fr_updateLiteral) (fun _ => Fr.pure)) hx) hl (ok (by simp)) rfl
  | simple cc l co v r s => exact h.fr (fr fr_addSimple hx) hl (ok (by simp)) rfl
  | dom cc l v d => exact h.fr (fr fr_addDom hx) hl (ok (by simp)) rfl
  | decide cc l => exact h.fr (fr (Fr.bind (Fr.discard fr_solverDecide) (fun _ => Fr.pure)) hx) hl (ok (by simp)) rfl
  | check cc b n =>
    have hlev : W'.book.levels = W.book.levels := (solverCheck_eff hx hAt).1.lev
    refine h.steady hp hx (by rw [hlev]) (steady (fun _ _ _ => keepT_solverCheck) hx) hl ?_ (ok (by simp)) ?_
    · exact (solverCheck_cov (f := false) (g := fun _ => True) hx hAt h.marks).1
    · rintro hr g g' - hg h1 ans hc
      subst hr
      exact (solverCheck_cov hx hAt h.marks).2 rfl h1 (ans cc rfl) (hc.learn hg)
  | simplify cc t b n =>
    have hx' : factLoop cc t b n n W = .ok (r, W') := hx
    have hlev : W'.book.levels = W.book.levels := ((keep_simplify hp).keep _ _ _ hx hAt).lev
    refine h.steady hp hx (by rw [hlev]) (steady (fun _ _ _ => keepT_factLoop) hx') hl ?_ (ok (by simp)) ?_
    · exact (factLoop_cov (f := false) (g := fun _ => True) hp hx' hAt h.marks).1
    · rintro hr g g' - hg h1 ans hc
      subst hr
      exact (factLoop_cov hp hx' hAt h.marks).2 rfl h1 (ans cc rfl) (hc.learn hg)
  | updateBounds cc o b n =>
    have hlev : W'.book.levels = W.book.levels := (keep_updateBounds.keep _ _ _ hx hAt).lev
    refine h.steady hp hx (by rw [hlev]) (steady (fun _ _ _ => keepT_updateBounds) hx) hl ?_ (ok (by simp)) ?_
    · exact (updateBounds_cov (f := false) (g := fun _ => True) hx hAt h.marks).1
    · rintro hr g g' - hg h1 ans hc
      subst hr
      exact (updateBounds_cov hx hAt h.marks).2 rfl h1 (ans cc rfl) (hc.learn hg)
  | checkFull cc b =>
    obtain ⟨_, W1, h1, h2⟩ := SM.bind_ok hx
    obtain ⟨-, rfl⟩ := pure_iff.mp h2
    have keep : ∀ P : List VarState × Book → Prop, (∀ vs b k, P (vs, b) → P (vs, { b with splitLast := k })) → P (frame W) → P (frame W') :=
      fun P hP => (keepF_solverCheckFull hP).keep _ _ _ h1
    have hlev : W'.book.levels = W.book.levels := keep (fun F => F.2.levels = W.book.levels) (fun _ _ _ h => h) rfl
    refine h.steady hp hx (by rw [hlev]) (keep (Steady _ _ _) (fun _ _ _ h => h) ⟨rfl, List.prefix_rfl, rfl⟩) hl ?_ (ok (by simp)) ?_
    · exact keep (fun F => Marks F.2.todo F) (fun _ _ _ h => h) h.marks
    · intro _ g g' _ hg _ _ hc
      exact Cov.learn hg (keep (Cov G.fresh g) (fun _ _ _ h => h) hc)

theorem ci_init {k : Int} {f : Bool} {g : Int → Prop} (hg : ¬ g 1) : CI (World.init k) ⟨true, f, [g]⟩ := by
  refine ⟨init_wi k, ⟨fun m c hc => ?_, fun m c hc => ?_⟩, trivial, ?_, fun _ _ _ => ⟨fun m c hc => ?_, fun m c hc => ?_⟩⟩
  · simp [World.init, frame] at hc
  · simp [World.init, frame] at hc
  · intro x hx
    rw [List.mem_singleton] at hx
    subst hx; exact hg
  · simp [World.init, frame] at hc
  · simp [World.init, frame] at hc

theorem ci_run {ops : List Op} {G' : Ghost} (h : Search ops W G W' G') : CI W G → CI W' G' := by
  induction h with
  | nil => exact id
  | cons hp hs hx hl _ ih => exact fun hc => ih (ci_step hc hp hs hx hl)

end Clingcon
