import Verif.Spec.Simplified
import Verif.Props.Given
import Verif.Props.Levels
import Verif.Proof.SafeDomain

/-! Simplification on the top level: property C75. -/
namespace Clingcon.Props
open Clingcon Clingcon.Spec

variable {cc : CC} {W W' W0 : World} {trail : List SEv → List Lit} {ck : Bool} {fuel m : Nat}

/-! ### Literals introduced are counted -/

/-- Literals introduced are below the next one. -/
structure LI (N : Int) (W : World) : Prop where
  ti : TI W
  next : N ≤ W.nextLit
  lits : ∀ a, SEv.lit a ∈ W.log → a < W.nextLit

theorem LI.got {N : Int} {v : Nat} {x l : Int} (h : LI N W) (g : GotLit W v x l W') : LI N W' := by
  have ti := g.ti h.ti
  cases g with
  | low | high => exact h
  | old => exact ⟨ti, h.next, h.lits⟩
  | new =>
    have := h.next
    refine ⟨ti, by show N ≤ W.nextLit + 1; omega, fun a ha => ?_⟩
    show a < W.nextLit + 1
    simp only [List.mem_cons, reduceCtorEq, SEv.lit.injEq, false_or] at ha
    rcases ha with rfl | ha
    · omega
    · have := h.lits a ha; omega

theorem LI.same {N : Int} (h : LI N W) (ti : TI W') (hl : W'.log = W.log) (hn : W.nextLit ≤ W'.nextLit) : LI N W' :=
  ⟨ti, h.next.trans hn, fun a ha => lt_of_lt_of_le (h.lits a (by rw [← hl]; exact ha)) hn⟩

theorem li_prim {N : Int} : Prim (LI N) where
  book _ _ _ h := ⟨h.ti.other rfl rfl rfl, h.next, h.lits⟩
  event _ _ he h := ⟨h.ti.other rfl rfl rfl, h.next, fun a ha => by
    rcases List.mem_cons.mp ha with ha | ha
    · exact absurd ha.symm (he.2 a)
    · exact h.lits a ha⟩
  levels _ _ h := ⟨h.ti.other rfl rfl rfl, h.next, h.lits⟩
  clear _ h := ⟨h.ti.other rfl rfl rfl, h.next, h.lits⟩
  literal cc v x := ⟨fun W a W' hx h => h.got (getLiteral_eff h.ti.wf (by have := h.ti.pos; omega) hx)⟩
  updLiteral cc v x t := ⟨fun W a W' hx h => by
    have ti := (ti_prim.updLiteral cc v x t).kw _ _ _ hx h.ti
    rcases updateLiteral_eff h.ti.wf (by have := h.ti.pos; omega) hx with ⟨-, t, -, g⟩ | g
    · cases g with
      | got _ _ g => exact h.got g
      | fact => exact ⟨ti, h.next, h.lits⟩
    · exact h.got g⟩
  mkFact a b hb := ⟨fun W u W' hx h => h.same ((ti_prim.mkFact a b hb).kw _ _ _ hx h.ti) (log_makeFact hx) (makeFact_ord h.ti hb hx).1.ge⟩
  drFact f v x := ⟨fun W u W' hx h => h.same ((ti_prim.drFact f v x).kw _ _ _ hx h.ti) (log_dropFact hx) (dropFact_ord h.ti hx).1.ge⟩
  step m n o := ⟨fun W u W' hx h => h.same ((ti_prim.step m n o).kw _ _ _ hx h.ti) (log_updateStep hx) (updateStep_ord h.ti hx).1.ge⟩
  updLower hx _ h := h.same (h.ti.ti_updateLower hx) (log_updateLower hx) (updateLower_ord hx).1.ge
  updUpper hx _ h := h.same (h.ti.ti_updateUpper hx) (log_updateUpper hx) (updateUpper_ord hx).1.ge
  popLower v := ⟨fun W u W' hx h => h.same ((ti_prim.popLower v).kw _ _ _ hx h.ti) (log_undoLowerVar hx) (undoLowerVar_ord hx).1.ge⟩
  popUpper v := ⟨fun W u W' hx h => h.same ((ti_prim.popUpper v).kw _ _ _ hx h.ti) (log_undoUpperVar hx) (undoUpperVar_ord hx).1.ge⟩

theorem LI.exec {N : Int} {op : Op} {r : Bool} (hi : LI N W) (hp : op.pre W) (h : op.exec W = .ok (r, W')) : LI N W' := by
  have hP := li_prim (N := N)
  have ti := hi.ti.exec hp h
  have new : ∀ a, SEv.lit a ∈ SEv.lit W.nextLit :: W.log → a < W.nextLit + 1 := fun a ha => by
    rcases List.mem_cons.mp ha with ha | ha
    · injection ha with ha; omega
    · have := hi.lits a ha; omega
  have more : N ≤ W.nextLit + 1 := by have := hi.next; omega
  cases op with
  | addVar lo up =>
    obtain ⟨_, W1, g1, g2⟩ := SM.bind_ok h
    obtain ⟨-, rfl⟩ := pure_iff.mp g2
    obtain ⟨v, g3⟩ := discard_iff.mp g1
    unfold addVar at g3
    injection g3 with g3
    obtain ⟨rfl, rfl⟩ := Prod.mk.inj g3
    exact ⟨ti, hi.next, hi.lits⟩
  | simple cc l co v r s =>
    replace h : addSimple cc l co v r s W = .ok (_, W') := h
    unfold addSimple at h
    rw [bind_iff] at h
    obtain ⟨f, W0, h0', h⟩ := h
    obtain ⟨rfl, rfl⟩ := qFalse_iff.mp h0'
    split at h
    · obtain ⟨-, rfl⟩ := pure_iff.mp h; exact hi
    rw [bind_iff] at h
    obtain ⟨truth, W1, h1, h⟩ := h
    obtain ⟨ht1, rfl⟩ := qValue_iff.mp h1
    generalize (if co > 0 then floordiv r co else -floordiv r (-co) - 1) = x at h
    rw [bind_iff] at h
    obtain ⟨direct, W2, h2, h⟩ := h
    cases direct with
    | true =>
      obtain ⟨rfl, vs, hv, hno⟩ := canReuse_none hi.ti.wf h2
      rw [if_pos rfl] at h
      cases truth with
      | some t =>
        dsimp only at h
        unfold useFact at h
        simp only [smok] at h
        obtain ⟨ps, W3, ⟨vs1, g1, rfl, rfl⟩, _, W4, rfl, vs2, W5, ⟨g2, rfl⟩, vs', W6, ⟨g3, rfl⟩, _, W7, rfl, -, rfl⟩ := h
        refine ⟨ti, hi.next, fun a ha => ?_⟩
        simp only [List.mem_cons, reduceCtorEq, false_or] at ha
        exact hi.lits a ha
      | none =>
        dsimp only at h
        unfold useLit at h
        rw [bind_iff] at h
        obtain ⟨o, W3, h3, h⟩ := h
        have e3 : N ≤ W3.nextLit ∧ ∀ a, SEv.lit a ∈ W3.log → a < W3.nextLit := by
          unfold freeLit at h3
          simp only [smok] at h3
          obtain ⟨e, W4, ⟨rfl, rfl⟩, h3⟩ := h3
          rcases h3 with ⟨hinv, rfl, rfl⟩ | ⟨-, l, W3, ⟨rfl, rfl⟩, _, W4, rfl, h3⟩
          · exact ⟨hi.next, hi.lits⟩
          obtain ⟨b, W4, ⟨rfl, rfl⟩, h3⟩ := h3
          rcases h3 with ⟨-, rfl, rfl⟩ | ⟨-, b, W5, ⟨rfl, rfl⟩, h3⟩
          · exact ⟨more, by simpa using new⟩
          rcases h3 with ⟨-, rfl, rfl⟩ | ⟨-, rfl, rfl⟩ <;> exact ⟨more, by simpa using new⟩
        cases o with
        | none => obtain ⟨-, rfl⟩ := pure_iff.mp h; exact ⟨ti, e3.1, e3.2⟩
        | some m =>
          simp only [smok] at h
          obtain ⟨_, W2, rfl, _, W3, rfl, _, W4, ⟨-, vs1, g1, -, rfl⟩, vs2, W5, ⟨g2, rfl⟩, vs', W6, ⟨g3, rfl⟩, _, W7, rfl, -, rfl⟩ := h
          refine ⟨ti, e3.1, fun a ha => ?_⟩
          simp only [List.mem_cons, reduceCtorEq, false_or] at ha
          exact e3.2 a ha
    | false =>
      have hi2 := (kw_canReuse hP.toPrim0).kw _ _ _ h2 hi
      rw [if_neg (by decide)] at h
      refine Kw.kw (P := LI N) ?_ _ _ _ h hi2
      kw_auto
  | fresh => rw [(fresh_iff.mp h).2] at ti ⊢; exact ⟨ti, more, new⟩
  | post e =>
    have hp2 := hp.2
    rw [(post_iff.mp h).2] at ti ⊢
    refine ⟨ti, hi.next, fun a ha => ?_⟩
    rcases List.mem_cons.mp ha with ha | ha
    · subst ha; cases hp2
    · exact hi.lits a ha
  | _ =>
    refine (kw_exec hP.toPrimU (fun W n h => ⟨h.ti.other rfl rfl rfl, h.next, h.lits⟩) ?_ ?_ ?_ ?_).kw _ _ _ h hi <;> intros <;>
      first | contradiction | (intro e; cases e)

theorem LI.run {N : Int} {ops : List Op} (h : Run ops W W') : LI N W → LI N W' := by
  induction h with
  | nil => exact id
  | cons hp hx _ ih => exact fun hi => ih (hi.exec hp hx)

theorem LI.init {N : Int} (h : 1 < N) : LI N (World.init N) := ⟨TI.init h, le_refl _, fun a ha => by cases ha⟩

/-! ### Where the trail has been read -/

theorem off_prim {k : Nat} : Prim (fun W => W.book.trailOffset = k) where
  book _ _ hb h := (congrArg (·.2) hb).trans h
  event _ _ _ h := h
  levels _ _ h := h
  clear _ h := h
  literal cc v x := ⟨fun W a W' hx h => by rw [show W'.book = W.book from congrArg Prod.snd (fr_getLiteral.fr _ _ _ hx)]; exact h⟩
  updLiteral cc v x t := ⟨fun W a W' hx h => by rw [show W'.book = W.book from congrArg Prod.snd (fr_updateLiteral.fr _ _ _ hx)]; exact h⟩
  mkFact a b hb := ⟨fun W u W' hx h => by rw [show W'.book = W.book from congrArg Prod.snd (fr_makeFact.fr _ _ _ hx)]; exact h⟩
  drFact f v x := ⟨fun W u W' hx h => by rw [show W'.book = W.book from congrArg Prod.snd (fr_dropFact.fr _ _ _ hx)]; exact h⟩
  step m n o := ⟨fun W u W' hx h => by rw [show W'.book = W.book from congrArg Prod.snd (fr_updateStep.fr _ _ _ hx)]; exact h⟩
  updLower {l v x W u W'} hx _ h := by
    unfold updateLower at hx
    simp only [smok] at hx
    obtain ⟨vs, W1, ⟨h1, rfl⟩, _, W2, h2, _, W3, ⟨h3, rfl⟩, _, W4, rfl, rfl⟩ := hx
    rcases h2 with ⟨-, rfl⟩ | ⟨-, rfl⟩ <;> exact h
  updUpper {l v x W u W'} hx _ h := by
    unfold updateUpper at hx
    simp only [smok] at hx
    obtain ⟨vs, W1, ⟨h1, rfl⟩, _, W2, h2, _, W3, ⟨h3, rfl⟩, _, W4, rfl, rfl⟩ := hx
    rcases h2 with ⟨-, rfl⟩ | ⟨-, rfl⟩ <;> exact h
  popLower v := ⟨fun W u W' hx h => by
    unfold undoLowerVar at hx
    simp only [smok] at hx
    obtain ⟨vs, W1, ⟨h1, rfl⟩, vs', W2, ⟨h2, rfl⟩, _, W3, rfl, rfl⟩ := hx
    exact h⟩
  popUpper v := ⟨fun W u W' hx h => by
    unfold undoUpperVar at hx
    simp only [smok] at hx
    obtain ⟨vs, W1, ⟨h1, rfl⟩, vs', W2, ⟨h2, rfl⟩, _, W3, rfl, rfl⟩ := hx
    exact h⟩

theorem off_exec {op : Op} {r : Bool} (hs : ∀ cc t b n, op ≠ .simplify cc t b n) (h : op.exec W = .ok (r, W')) : W'.book.trailOffset = W.book.trailOffset := by
  have hP := (off_prim (k := W.book.trailOffset)).toPrimU
  cases op with
  | addVar lo up =>
    obtain ⟨_, W1, g1, g2⟩ := SM.bind_ok h
    obtain ⟨-, rfl⟩ := pure_iff.mp g2
    obtain ⟨v, g3⟩ := discard_iff.mp g1
    unfold addVar at g3
    injection g3 with g3
    obtain ⟨rfl, rfl⟩ := Prod.mk.inj g3
    rfl
  | simple cc l co v r s => exact congrArg (fun F => F.2.trailOffset) (fr_addSimple.fr _ _ _ h)
  | fresh => rw [(fresh_iff.mp h).2]
  | post e => rw [(post_iff.mp h).2]
  | simplify cc t b n => exact absurd rfl (hs _ _ _ _)
  | _ =>
    refine Kw.kw (P := fun X => X.book.trailOffset = W.book.trailOffset) ?_ _ _ _ h rfl
    unfold Op.exec
    kw_auto

/-! ### The loop -/

/-- States on the top level. -/
structure Ground (m : Int) (trail : List SEv → List Lit) (W : World) : Prop where
  wi : WI W
  li : LI m W
  top : W.book.levels.length = 1
  off : W.book.trailOffset ≤ (trail W.log).length

theorem trail_suffix {m : Int} (ht : Trailing m trail) {a : List SEv} : ∀ {b : List SEv}, a <:+ b → trail a <+: trail b
  | [], h => by
    rw [List.suffix_nil] at h
    subst h
    exact List.prefix_rfl
  | e :: b, h => by
    rcases List.suffix_cons_iff.mp h with rfl | h
    · exact List.prefix_rfl
    · exact (trail_suffix ht h).trans (ht.grows e b)

theorem gi_same {t : Told} (h : GI W [t]) (hl : W.book.levels.length = 1) (wi : WI W') (hv : W'.vars = W.vars) (hn : W'.nextLit = W.nextLit) (ti : TI W')
    (hl' : W'.book.levels.length = 1) {t' : Told} (h1 : ∀ l, t'.done l → t.done l) (h2 : ∀ l, t'.tried l → t.tried l) (h3 : ∀ l, t'.done l → t'.tried l) : GI W' [t'] := by
  obtain ⟨t0, e, q⟩ := h.at_top hl
  injection e with e _
  subst e
  refine GI.top wi ti hl' (fun v k l ho hne => ?_) (fun l hh => ?_) h3
  · have ho' : OrdLit W v k l := by unfold OrdLit at ho ⊢; rw [← hv]; exact ho
    obtain ⟨a, b⟩ := q.fwd v k l ho' hne
    have e1 : upF (frame W') v = upF (frame W) v := by unfold upF frame; rw [hv]
    have e2 : loF (frame W') v = loF (frame W) v := by unfold loF frame; rw [hv]
    rw [e1, e2]
    exact ⟨fun h => a (h1 _ h), fun h => b (h1 _ h)⟩
  · rw [hn]; exact q.known l (h2 _ hh)

theorem factLoop_rounds {m : Int} (ht : Trailing m trail) (h0 : cc.level = 0) : ∀ {n : Nat} {W W' : World}, factLoop cc trail ck fuel n W = .ok (true, W') → Ground m trail W →
    ∃ lss, Rounds cc ck fuel lss W W' ∧ lss.flatten = (trail W'.log).drop W.book.trailOffset ∧ W'.book.trailOffset = (trail W'.log).length ∧ W'.book.todo = [] ∧
      (lss ≠ [] ∨ W.noChanges → W'.noChanges) ∧ (lss ≠ [] ∨ W.factmap = [] → W'.factmap = []) ∧ WI W' ∧ W'.book.levels.length = 1 ∧
      (GI W [just ((trail W.log).take W.book.trailOffset)] → GI W' [just (trail W'.log)])
  | 0, W, W', h, _ => by cases h
  | n + 1, W, W', h, g => by
    unfold factLoop at h
    obtain ⟨b, W1, h1, h2⟩ := SM.bind_ok h
    obtain ⟨rfl, rfl⟩ := ccPropagate_iff.mp h1
    split at h2
    · cases (pure_iff.mp h2).1
    rename_i hacc
    have hacc : cc.accept (.propagate :: W.log) = true := by simpa using hacc
    obtain ⟨W2, W3, h3, h4⟩ := SM.bind_ok h2
    obtain ⟨rfl, rfl⟩ := get_iff.mp h3
    have hlog := ht.grows .propagate W.log
    have hoff : W.book.trailOffset ≤ (trail (.propagate :: W.log)).length := g.off.trans hlog.length_le
    have htk : (trail (.propagate :: W.log)).take W.book.trailOffset = (trail W.log).take W.book.trailOffset := by
      obtain ⟨s, hs⟩ := hlog
      rw [← hs, List.take_append_of_le_length g.off]
    have ti1 : TI { W with log := .propagate :: W.log } := g.li.ti.other rfl rfl rfl
    have wi1 : WI { W with log := .propagate :: W.log } := ⟨g.wi.bi, g.wi.base⟩
    have gi1 : GI W [just ((trail W.log).take W.book.trailOffset)] → GI { W with log := .propagate :: W.log } [just ((trail W.log).take W.book.trailOffset)] :=
      fun gi => gi_same gi g.top wi1 rfl rfl ti1 g.top (fun _ h => h) (fun _ h => h) (fun _ h => h)
    dsimp only at h4
    split at h4
    · rename_i hd
      obtain ⟨hd1, hd2⟩ := hd
      obtain ⟨-, rfl⟩ := pure_iff.mp h4
      refine ⟨[], .done W hacc, ?_, hd1, hd2, fun h => ?_, fun h => ?_, wi1, g.top, fun gi => ?_⟩
      · show [] = List.drop W.book.trailOffset _
        rw [hd1, List.drop_length]
      · exact h.resolve_left (fun h => h rfl)
      · exact h.resolve_left (fun h => h rfl)
      · have := gi1 gi
        rw [← htk, hd1, List.take_length] at this
        exact this
    obtain ⟨b, W4, h5, h6⟩ := SM.bind_ok h4
    cases b with
    | false => cases (pure_iff.mp (show (Pure.pure false : SM Bool) W4 = .ok (true, W') from h6)).1
    | true =>
    obtain ⟨_, W5, h7, h8⟩ := SM.bind_ok (show (do _; _ : SM Bool) W4 = _ from h6)
    obtain rfl := modify_iff.mp h7
    obtain ⟨b, W6, h9, h10⟩ := SM.bind_ok h8
    cases b with
    | false => cases (pure_iff.mp (show (Pure.pure false : SM Bool) W6 = .ok (true, W') from h10)).1
    | true =>
    have h10 : factLoop cc trail ck fuel n W6 = .ok (true, W') := h10
    generalize hX : trail (.propagate :: W.log) = X at *
    have a1 : At [baseLvl] (alF (frame W), auF (frame W), (frame W).1.length) (frame { W with log := .propagate :: W.log }) :=
      ⟨g.wi.bi, g.wi.levels g.top, fun _ _ _ _ _ => ⟨rfl, rfl⟩, rfl⟩
    have a4 := (keep_propagate0 h0).keep _ _ _ h5 a1
    have a5 : At [baseLvl] (alF (frame W), auF (frame W), (frame W).1.length) (frame { W4 with book.trailOffset := X.length }) :=
      (keep_other (fun W => ⟨W.book.splitLast, X.length, W.book.minimizeLevel, W.book.minimizeBound, rfl⟩)).keep _ _ _ h7 a4
    obtain ⟨a6, s6⟩ := solverCheck_eff h9 a5
    have s6 := s6 rfl (Or.inl (fun l hl => Or.inl (by cases hl; exact h0)))
    have top4 : W4.book.levels.length = 1 := congrArg List.length (a4.lev : W4.book.levels = _)
    have top6 : W6.book.levels.length = 1 := congrArg List.length (a6.lev : W6.book.levels = _)
    have wi4 : WI W4 := ⟨a4.bi, by rw [show W4.book.levels = _ from a4.lev]; rfl⟩
    have wi5 : WI { W4 with book.trailOffset := X.length } := ⟨a5.bi, by rw [show W4.book.levels = _ from a4.lev]; rfl⟩
    have wi6 : WI W6 := ⟨a6.bi, by rw [show W6.book.levels = _ from a6.lev]; rfl⟩
    have li1 : LI m { W with log := .propagate :: W.log } := li_prim.event W .propagate (by simp) g.li
    have li4 := (kw_solverPropagate li_prim.toPrimU.toPrimD).kw _ _ _ h5 li1
    have li5 : LI m { W4 with book.trailOffset := X.length } := ⟨li4.ti.other rfl rfl rfl, li4.next, li4.lits⟩
    have li6 := (kw_solverCheck li_prim.toPrimU.toPrimD).kw _ _ _ h9 li5
    have o6 : W6.book.trailOffset = X.length := (kw_solverCheck (off_prim (k := X.length)).toPrimU.toPrimD).kw _ _ _ h9 rfl
    have l4 := ((kw_solverPropagate (lg_prim (W0 := { W with log := .propagate :: W.log })).toPrimU.toPrimD).kw _ _ _ h5 (LG.refl ti1)).log
    have l6 := ((kw_solverCheck (lg_prim (W0 := { W4 with book.trailOffset := X.length })).toPrimU.toPrimD).kw _ _ _ h9 (LG.refl li5.ti)).log
    have l7 := ((kw_factLoop (lg_prim (W0 := W6)).toPrimU.toPrimD (fun _ _ h => ⟨h.ti.other rfl rfl rfl, h.log⟩)).kw _ _ _ h10 (LG.refl li6.ti)).log
    have p6 : X <+: trail W6.log := by rw [← hX]; exact trail_suffix ht (l4.trans l6)
    have p7 : X <+: trail W'.log := p6.trans (trail_suffix ht l7)
    have f6 : W6.factmap = [] := C50_integrated (Or.inl (by rw [h0]; exact (wi5.level_top top4).symm)) h9
    obtain ⟨lss, r1, r2, r3, r4, r5, r6, r7, r8, r9⟩ := factLoop_rounds ht h0 h10 ⟨wi6, li6, top6, by rw [o6]; exact p6.length_le⟩
    refine ⟨X.drop W.book.trailOffset :: lss, .round hacc h5 h9 r1, ?_, r3, r4, fun _ => r5 (Or.inr ⟨s6.low, s6.upp⟩), fun _ => r6 (Or.inr f6), r7, r8, fun gi => ?_⟩
    · obtain ⟨s, hs⟩ := p7
      rw [List.flatten_cons, r2, o6, ← hs, List.drop_append_of_le_length hoff, List.drop_left]
    · refine r9 ?_
      have g4 := gi_propagate (gi1 gi) (fun hlt => absurd hlt (by omega)) ⟨by rw [wi1.level_top g.top]; omega, fun l hl => ?_⟩ h5
      · have e4 : toldAfter (.propagate cc (X.drop W.book.trailOffset)) { W with log := .propagate :: W.log } W4 true [just ((trail W.log).take W.book.trailOffset)] =
            [(just ((trail W.log).take W.book.trailOffset)).add true (X.drop W.book.trailOffset)] := by
          unfold toldAfter
          dsimp only
          rw [if_neg (by rw [top4, g.top]; omega)]
        rw [e4] at g4
        have split : ∀ l, l ∈ X → l ∈ (trail W.log).take W.book.trailOffset ∨ l ∈ X.drop W.book.trailOffset := fun l hl => by
          rw [← htk, ← List.mem_append, List.take_append_drop]; exact hl
        have g5 : GI { W4 with book.trailOffset := X.length } [just X] := gi_same g4 top4 wi5 rfl rfl li5.ti top4
          (fun l hl => (split l hl).imp id (fun h => ⟨rfl, h⟩)) (fun l hl => split l hl) (fun _ h => h)
        have g6 := gi_other (op := .check cc ck fuel) g5 trivial (show World.level _ ≤ _ by rw [wi5.level_top top4]; omega) h9 (fun _ _ e => by cases e) (fun e => by cases e)
        obtain ⟨s, hs⟩ := p6
        rw [o6, ← hs, List.take_left]
        exact g6
      · have hl' : l ∈ trail (.propagate :: W.log) := by rw [hX]; exact List.mem_of_mem_drop hl
        obtain ⟨k1, k2⟩ := ht.known _ l hl'
        refine ⟨k1, ?_⟩
        rcases k2 with k2 | k2
        · exact lt_of_lt_of_le k2 li1.next
        · exact li1.lits _ k2

theorem factLoop_within {m : Int} (ht : Trailing m trail) {r : Bool} : ∀ {n : Nat} {W W' : World}, factLoop cc trail ck fuel n W = .ok (r, W') → TI W →
    W.book.trailOffset ≤ (trail W.log).length → W'.book.trailOffset ≤ (trail W'.log).length
  | 0, W, W', h, _, _ => by cases h
  | n + 1, W, W', h, ti, ho => by
    unfold factLoop at h
    obtain ⟨b, W1, h1, h2⟩ := SM.bind_ok h
    obtain ⟨rfl, rfl⟩ := ccPropagate_iff.mp h1
    have ho1 : W.book.trailOffset ≤ (trail (.propagate :: W.log)).length := ho.trans (ht.grows .propagate W.log).length_le
    have ti1 : TI { W with log := .propagate :: W.log } := ti.other rfl rfl rfl
    split at h2
    · obtain ⟨-, rfl⟩ := pure_iff.mp h2
      exact ho1
    obtain ⟨W2, W3, h3, h4⟩ := SM.bind_ok h2
    obtain ⟨rfl, rfl⟩ := get_iff.mp h3
    dsimp only at h4
    split at h4
    · obtain ⟨-, rfl⟩ := pure_iff.mp h4
      exact ho1
    obtain ⟨b, W4, h5, h6⟩ := SM.bind_ok h4
    have l4 := (kw_solverPropagate (lg_prim (W0 := { W with log := .propagate :: W.log })).toPrimU.toPrimD).kw _ _ _ h5 (LG.refl ti1)
    have o4 : W4.book.trailOffset = W.book.trailOffset := (kw_solverPropagate (off_prim (k := W.book.trailOffset)).toPrimU.toPrimD).kw _ _ _ h5 rfl
    have p4 := trail_suffix ht l4.log
    cases b with
    | false =>
      obtain ⟨-, rfl⟩ := pure_iff.mp (show (Pure.pure false : SM Bool) W4 = .ok (r, W') from h6)
      rw [o4]; exact ho1.trans p4.length_le
    | true =>
    obtain ⟨_, W5, h7, h8⟩ := SM.bind_ok (show (do _; _ : SM Bool) W4 = _ from h6)
    obtain rfl := modify_iff.mp h7
    obtain ⟨b, W6, h9, h10⟩ := SM.bind_ok h8
    have l6 := (kw_solverCheck (lg_prim (W0 := { W4 with book.trailOffset := (trail (.propagate :: W.log)).length })).toPrimU.toPrimD).kw _ _ _ h9
      (LG.refl (l4.ti.other rfl rfl rfl))
    have o6 : W6.book.trailOffset = (trail (.propagate :: W.log)).length := (kw_solverCheck (off_prim (k := _)).toPrimU.toPrimD).kw _ _ _ h9 rfl
    have p6 := p4.trans (trail_suffix ht l6.log)
    cases b with
    | false =>
      obtain ⟨-, rfl⟩ := pure_iff.mp (show (Pure.pure false : SM Bool) W6 = .ok (r, W') from h10)
      rw [o6]; exact p6.length_le
    | true => exact factLoop_within ht (show factLoop cc trail ck fuel n W6 = .ok (r, W') from h10) l6.ti (by rw [o6]; exact p6.length_le)

/-! ### The property -/

/-- **C75** If all calls of `simplify` use the trail, then it has at least the length up to which it has been read. -/
theorem C75_within {m : Int} {ops : List Op} (ht : Trailing m trail) (hs : ∀ op ∈ ops, ∀ cc t b n, op = .simplify cc t b n → t = trail) (hm : 1 < m)
    (h : Run ops (World.init m) W) : W.book.trailOffset ≤ (trail W.log).length := by
  have key : ∀ {ops : List Op} {W W' : World}, Run ops W W' → (∀ op ∈ ops, ∀ cc t b n, op = .simplify cc t b n → t = trail) → TI W →
      W.book.trailOffset ≤ (trail W.log).length → W'.book.trailOffset ≤ (trail W'.log).length := by
    intro ops W W' h
    induction h with
    | nil => exact fun _ _ h => h
    | @cons op ops W W1 W2 r hp hx _ ih =>
      intro hs ti ho
      refine ih (fun op ho => hs op (List.mem_cons_of_mem _ ho)) (ti.exec hp hx) ?_
      have hop := hs op List.mem_cons_self
      by_cases hc : ∃ cc t b n, op = .simplify cc t b n
      · obtain ⟨cc, t, b, n, rfl⟩ := hc
        obtain rfl := hop _ _ _ _ rfl
        exact factLoop_within ht (show factLoop cc t b n n W = _ from hx) ti ho
      · rw [off_exec (fun cc t b n e => hc ⟨cc, t, b, n, e⟩) hx]
        exact ho.trans (trail_suffix ht (by obtain ⟨s, e⟩ := exec_log hx; exact ⟨s, e.symm⟩)).length_le
  exact key h hs (TI.init hm) (Nat.zero_le _)

/-- **C75** If `simplify` succeeds on the top level, then it alternates propagation by the Boolean solver, `propagate` and `check`, and passes each literal
on the trail that has not been passed before exactly once and in order. -/
theorem C75_rounds {m : Int} {ops : List Op} (hm : 1 < m) (hr : Run ops (World.init m) W) (htop : W.book.levels.length = 1) (ht : Trailing m trail)
    (hoff : W.book.trailOffset ≤ (trail W.log).length) (hp : (Op.simplify cc trail ck fuel).pre W) (h : (Op.simplify cc trail ck fuel).exec W = .ok (true, W')) :
    ∃ lss, Rounds cc ck fuel lss W W' ∧ lss.flatten = (trail W'.log).drop W.book.trailOffset ∧ W'.book.trailOffset = (trail W'.log).length := by
  obtain ⟨lss, r1, r2, r3, -⟩ := factLoop_rounds ht hp (show factLoop cc trail ck fuel fuel W = _ from h) ⟨run_wi hr (init_wi m), LI.run hr (LI.init hm), htop, hoff⟩
  exact ⟨lss, r1, r2, r3⟩

/-- **C75** If `simplify` succeeds on the top level, then no constraint is queued. Furthermore, no change of a bound is pending and all facts have
been integrated if there was anything to do, that is, if a constraint was queued or there was a literal on the trail that had not been passed. -/
theorem C75_settled {m : Int} {ops : List Op} (hm : 1 < m) (hr : Run ops (World.init m) W) (htop : W.book.levels.length = 1) (ht : Trailing m trail)
    (hoff : W.book.trailOffset ≤ (trail W.log).length) (hp : (Op.simplify cc trail ck fuel).pre W) (h : (Op.simplify cc trail ck fuel).exec W = .ok (true, W')) :
    W'.book.todo = [] ∧ (W.book.todo ≠ [] ∨ W.book.trailOffset < (trail W.log).length ∨ W.noChanges ∧ W.factmap = [] → W'.settled ∧ W'.factmap = []) := by
  obtain ⟨lss, r1, r2, r3, r4, r5, r6, -⟩ := factLoop_rounds ht hp (show factLoop cc trail ck fuel fuel W = _ from h) ⟨run_wi hr (init_wi m), LI.run hr (LI.init hm), htop, hoff⟩
  refine ⟨r4, fun hc => ?_⟩
  rcases hc with hc | hc | ⟨h1, h2⟩
  · have : lss ≠ [] := by
      rintro rfl
      cases r1 with
      | done => exact hc r4
    exact ⟨⟨r5 (Or.inl this), r4⟩, r6 (Or.inl this)⟩
  · have : lss ≠ [] := by
      rintro rfl
      cases r1 with
      | done =>
        have := (ht.grows .propagate W.log).length_le
        dsimp only at r3
        omega
    exact ⟨⟨r5 (Or.inl this), r4⟩, r6 (Or.inl this)⟩
  · exact ⟨⟨r5 (Or.inr h1), r4⟩, r6 (Or.inr h2)⟩

/-- **C75** If the bounds reflect the order literals up to where the trail has been read, then they reflect all order literals on the trail after `simplify`
succeeded. If all facts have been integrated, then no order literal equals the true literal. -/
theorem C75_reflected {m : Int} {ops : List Op} (hm : 1 < m) (hr : Run ops (World.init m) W) (htop : W.book.levels.length = 1) (ht : Trailing m trail)
    (hoff : W.book.trailOffset ≤ (trail W.log).length) (hp : (Op.simplify cc trail ck fuel).pre W) (h : (Op.simplify cc trail ck fuel).exec W = .ok (true, W'))
    (href : Reflected ((trail W.log).take W.book.trailOffset) W) :
    Reflected (trail W'.log) W' ∧ (W'.factmap = [] → ∀ v k l, OrdLit W' v k l → l.natAbs ≠ 1) := by
  have li := LI.run hr (LI.init hm)
  have wi := run_wi hr (init_wi m)
  obtain ⟨lss, r1, r2, r3, r4, r5, r6, r7, r8, r9⟩ := factLoop_rounds ht hp (show factLoop cc trail ck fuel fuel W = _ from h) ⟨wi, li, htop, hoff⟩
  have fi : FI W' := (FI.run hr (FI.init hm)).exec hp h
  have gi := r9 (GI.top wi li.ti htop (fun v k l ho h1 => by rw [← upperOf_eq, ← lowerOf_eq]; exact href v k l ho h1) (fun l hl => ?_) (fun _ h => h))
  · refine ⟨fun v k l ho h1 => ?_, fun he v k l ho h1 => ?_⟩
    · obtain ⟨t, e, q⟩ := gi.at_top r8
      injection e with e _
      subst e
      rw [upperOf_eq, lowerOf_eq]
      exact q.fwd v k l ho h1
    · obtain ⟨p, hp⟩ := fi.inn v k l ho h1
      rw [he] at hp
      cases hp
  · obtain ⟨k1, k2⟩ := ht.known _ l (List.mem_of_mem_take hl)
    exact ⟨k1, k2.elim (fun k => lt_of_lt_of_le k li.next) (li.lits _)⟩

/-- **C75** Other calls on the top level keep this. -/
theorem C75_reflected_kept {m : Int} {ops : List Op} {ls : List Lit} {op : Op} {r : Bool} (hm : 1 < m) (hr : Run ops (World.init m) W) (htop : W.book.levels.length = 1)
    (hn : ∀ l ∈ ls, l ≠ 0 ∧ (l.natAbs : Int) < W.nextLit) (hp : op.pre W) (hf : feedPre [just ls] W op) (hpr : ∀ cc ls, op ≠ .propagate cc ls) (hu : op ≠ .undo)
    (h : op.exec W = .ok (r, W')) (href : Reflected ls W) : Reflected ls W' := by
  have wi := run_wi hr (init_wi m)
  have ti := TI.run hr (TI.init hm)
  have gi := gi_other (GI.top (t := just ls) wi ti htop (fun v k l ho h1 => by rw [← upperOf_eq, ← lowerOf_eq]; exact href v k l ho h1) hn (fun _ h => h)) hp hf h hpr hu
  obtain ⟨t, e, q⟩ := gi.at_top (by rw [op_levels hp h wi hpr hu]; exact htop)
  injection e with e _
  subst e
  intro v k l ho h1
  rw [upperOf_eq, lowerOf_eq]
  exact q.fwd v k l ho h1

/-! ### An example -/

/-- The literal 2 is on the trail if it has been added as a clause. -/
def smTrail (log : List SEv) : List Lit := 1 :: log.reverse.filterMap (fun e => if e = .clause [2] then some 2 else none)

theorem sm_trailing : Trailing 3 smTrail where
  grows e log := by
    refine List.prefix_cons_inj _ |>.mpr ?_
    rw [List.reverse_cons, List.filterMap_append]
    exact List.prefix_append _ _
  known log l hl := by
    rcases List.mem_cons.mp hl with rfl | hl
    · exact ⟨by decide, Or.inl (by decide)⟩
    · obtain ⟨e, -, h⟩ := List.mem_filterMap.mp hl
      split at h
      · injection h with h; subst h; exact ⟨by decide, Or.inl (by decide)⟩
      · cases h

/-- The environment. -/
def smCC : CC :=
  { assigns 0 [] with
    fix := fun log a => a == 1 || (a == 2 && decide (SEv.clause [2] ∈ log))
    atom := fun log a => if a = 1 then some true else if a = 2 ∧ SEv.clause [2] ∈ log then some true else none }

/-- There are two variables and `y - x ≤ 3`, the literal 2 stands for `x ≤ 5`, and is added as a clause after `simplify` has been called. -/
def smOps : List Op :=
  [.addVar 0 10, .addVar 0 10, .addConstraint (.sum 1 3 [(1, 1), (-1, 0)]), .simple smCC 2 1 0 5 true, .simplify smCC smTrail false 5, .post (.clause [2])]

/-- The bounds after the second call of `simplify` are `x ≤ 5` and `y ≤ 8`. -/
example : ∃ W W', Run smOps (World.init 3) W ∧ (Op.simplify smCC smTrail false 5).exec W = .ok (true, W') ∧ boundsOf W = [(0, 10), (0, 10)] ∧ W.book.trailOffset = 1 ∧
    W.book.levels.length = 1 ∧ smTrail W.log = [1, 2] ∧ boundsOf W' = [(0, 5), (0, 8)] ∧ OrdLit W 0 5 2 ∧ 2 ∈ smTrail W'.log ∧
    Reflected ((smTrail W.log).take W.book.trailOffset) W ∧ Reflected (smTrail W'.log) W' ∧ W'.settled ∧ W'.factmap = [] ∧
    ∃ lss, Rounds smCC false 5 lss W W' ∧ lss.flatten = [2] := by
  have hb : (tryRun smOps (World.init 3)).isSome = true := by decide +kernel
  obtain ⟨W, hW⟩ := Option.isSome_iff_exists.mp hb
  have hr := tryRun_run hW
  have hw : ∀ {α : Type} (f : World → α) (a : α), (tryRun smOps (World.init 3)).map f = some a → f W = a := by
    intro α f a h
    rw [hW] at h
    exact Option.some.inj h
  have h1 : ((Op.simplify smCC smTrail false 5).exec W).toOption.map (fun p => (p.1, boundsOf p.2, smTrail p.2.log)) = some (true, [(0, 5), (0, 8)], [1, 2]) := by
    refine hw (fun W => ((Op.simplify smCC smTrail false 5).exec W).toOption.map (fun p => (p.1, boundsOf p.2, smTrail p.2.log))) _ ?_
    decide +kernel
  have h2 : W.vars[0]?.map (·.with) = some [(5, 2)] := hw (fun W => W.vars[0]?.map (·.with)) _ (by decide +kernel)
  have e1 : W.book.trailOffset = 1 := hw (fun W => W.book.trailOffset) _ (by decide +kernel)
  have e2 : W.book.levels.length = 1 := hw (fun W => W.book.levels.length) _ (by decide +kernel)
  have e3 : smTrail W.log = [1, 2] := hw (fun W => smTrail W.log) _ (by decide +kernel)
  have e4 : boundsOf W = [(0, 10), (0, 10)] := hw boundsOf _ (by decide +kernel)
  cases hx : (Op.simplify smCC smTrail false 5).exec W with
  | error e => rw [hx] at h1; cases h1
  | ok p =>
    obtain ⟨r, W'⟩ := p
    rw [hx] at h1
    injection h1 with h1
    obtain ⟨rfl, h3, h4⟩ : r = true ∧ boundsOf W' = [(0, 5), (0, 8)] ∧ smTrail W'.log = [1, 2] := by
      simp only [Prod.mk.injEq] at h1; exact h1
    have hoff : W.book.trailOffset ≤ (smTrail W.log).length := by rw [e1, e3]; decide
    have href : Reflected ((smTrail W.log).take W.book.trailOffset) W := by
      intro v k l _ h1
      rw [e1, e3]
      refine ⟨fun hl => ?_, fun hl => ?_⟩ <;> (simp at hl; omega)
    obtain ⟨lss, r1, r2, -⟩ := C75_rounds (by decide) hr e2 sm_trailing hoff (show smCC.level = 0 from rfl) hx
    obtain ⟨-, hs⟩ := C75_settled (by decide) hr e2 sm_trailing hoff (show smCC.level = 0 from rfl) hx
    obtain ⟨s1, s2⟩ := hs (Or.inr (Or.inl (by rw [e1, e3]; decide)))
    refine ⟨W, W', hr, hx, e4, e1, e2, e3, h3, ?_, by rw [h4]; decide, href, (C75_reflected (by decide) hr e2 sm_trailing hoff (show smCC.level = 0 from rfl) hx href).1, s1, s2, lss, r1, ?_⟩
    · cases hv : W.vars[0]? with
      | none => rw [hv] at h2; cases h2
      | some vs =>
        rw [hv] at h2
        injection h2 with h2
        exact ⟨vs, hv, by rw [show vs.with = _ from h2]; decide⟩
    · rw [r2, h4, e1]; rfl

end Clingcon.Props
