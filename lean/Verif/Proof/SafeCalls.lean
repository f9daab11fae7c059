import Verif.Proof.SafeOps

/-! Calls of the functions of a solver return. -/
set_option linter.unusedSimpArgs false
set_option linter.unusedVariables false
namespace Clingcon
open Spec VarState

variable {α γ : Type} {W W0 W' : World} {cc : CC} {r : Bool}

theorem some_var {v : Nat} (h : v < W.vars.length) : ∃ vs, W.vars[v]? = some vs := ⟨_, List.getElem?_eq_getElem h⟩

/-! ### Simple constraints and domains -/

theorem Ok.freeLit {l x : Int} {v : Nat} : Ok (freeLit cc l v x) W := by
  unfold Clingcon.freeLit
  refine Ok.step (litmapAt_iff.mpr ⟨rfl, rfl⟩) ?_
  split
  · exact Ok.pure
  refine Ok.step (newLit_iff.mpr ⟨rfl, rfl⟩) (Ok.stepU (modify_iff.mpr rfl) (Ok.step (addClause_iff.mpr ⟨rfl, rfl⟩) ?_))
  split
  · exact Ok.pure
  refine Ok.step (addClause_iff.mpr ⟨rfl, rfl⟩) ?_
  split <;> exact Ok.pure

theorem freeLit_ne {l x m : Int} {v : Nat} (hl : l ≠ 0) (hp : 1 < W.nextLit) (h : freeLit cc l v x W = .ok (some m, W')) : m ≠ 0 := by
  unfold freeLit at h
  simp only [smok] at h
  obtain ⟨e, W4, ⟨rfl, rfl⟩, h3⟩ := h
  rcases h3 with ⟨hinv, h3, rfl⟩ | ⟨-, l, W3, ⟨rfl, rfl⟩, _, W4, rfl, h3⟩
  · injection h3 with h3; rw [h3]; exact hl
  obtain ⟨b, W4, ⟨rfl, rfl⟩, h3⟩ := h3
  rcases h3 with ⟨-, h3, rfl⟩ | ⟨-, b, W5, ⟨rfl, rfl⟩, h3⟩
  · cases h3
  rcases h3 with ⟨-, h3, rfl⟩ | ⟨-, h3, rfl⟩
  · cases h3
  · injection h3 with h3; omega

theorem Ok.useLit {l x : Int} {v : Nat} {vs : VarState} (ti : TI W) (hl : l ≠ 0) (hv : W.vars[v]? = some vs) (hx : vs.minBound ≤ x ∧ x < vs.maxBound) :
    Ok (useLit cc l v x) W := by
  unfold Clingcon.useLit
  refine Ok.bind Ok.freeLit (fun o W1 h1 => ?_)
  obtain ⟨e1, e2⟩ := freeLit_same h1
  cases o with
  | none => exact Ok.pure
  | some m =>
    have hm := freeLit_ne hl ti.pos h1
    have hv1 : W1.vars[v]? = some vs := by rw [e2]; exact hv
    obtain ⟨vs', g, -⟩ := setLiteral_ok (ti.wf _ _ hv) hm hx
    refine Ok.stepU (addWatch_iff.mpr rfl) (Ok.stepU (addWatch_iff.mpr rfl) ?_)
    refine Ok.stepU (litmapAdd_iff.mpr ⟨hm, vs, hv1, litPrev_ne, rfl⟩) (Ok.step (getVar_iff.mpr ⟨hv1, rfl⟩) ?_)
    exact Ok.step (liftRes_iff.mpr ⟨g, rfl⟩) (Ok.stepU (setVar_iff.mpr rfl) Ok.pure)

theorem Ok.useFact {t : Bool} {x : Int} {v : Nat} {vs : VarState} (ti : TI W) (hv : W.vars[v]? = some vs) (hx : vs.minBound ≤ x ∧ x < vs.maxBound) :
    Ok (useFact t v x) W := by
  unfold Clingcon.useFact
  have hm : (if t then TRUE_LIT else -TRUE_LIT) ≠ 0 := by cases t <;> decide
  obtain ⟨vs', g, -⟩ := setLiteral_ok (ti.wf _ _ hv) hm hx
  refine Ok.step (updateLitmap_iff.mpr ⟨vs, hv, rfl, rfl⟩) (Ok.stepU (modify_iff.mpr rfl) (Ok.step (getVar_iff.mpr ⟨hv, rfl⟩) ?_))
  exact Ok.step (liftRes_iff.mpr ⟨g, rfl⟩) (Ok.stepU (setVar_iff.mpr rfl) Ok.pure)

theorem Ok.canReuse {x : Int} {v : Nat} {s : Bool} (ti : TI W) (hv : v < W.vars.length) : Ok (canReuse v x s) W := by
  obtain ⟨vs, hv⟩ := some_var hv
  unfold Clingcon.canReuse
  refine Ok.step (getVar_iff.mpr ⟨hv, rfl⟩) ?_
  split
  · rename_i h
    obtain ⟨b, g, -⟩ := hasLiteral_ok (ti.wf _ _ hv) (Or.inl h.2)
    exact Ok.step (liftRes_iff.mpr ⟨g, rfl⟩) Ok.pure
  · exact Ok.pure

theorem canReuse_range {x : Int} {v : Nat} {s b : Bool} (h : canReuse v x s W = .ok (b, W')) :
    W' = W ∧ (b = true → ∃ vs, W.vars[v]? = some vs ∧ vs.minBound ≤ x ∧ x < vs.maxBound) := by
  unfold canReuse at h
  simp only [smok] at h
  obtain ⟨vs, W1, ⟨g1, rfl⟩, h⟩ := h
  rcases h with ⟨hc, b', W2, ⟨g2, rfl⟩, rfl, rfl⟩ | ⟨-, rfl, rfl⟩
  · exact ⟨rfl, fun _ => ⟨vs, g1, hc.2⟩⟩
  · exact ⟨rfl, fun h => by cases h⟩

theorem Ok.addSimple {l co rhs : Int} {v : Nat} {s : Bool} (ti : TI W) (hl : l ≠ 0) (hv : v < W.vars.length) : Ok (addSimple cc l co v rhs s) W := by
  unfold Clingcon.addSimple
  refine Ok.step (qFalse_iff.mpr ⟨rfl, rfl⟩) ?_
  split
  · exact Ok.pure
  refine Ok.step (qValue_iff.mpr ⟨rfl, rfl⟩) ?_
  generalize cc.value W.log (if co > 0 then l else -l) = truth
  dsimp only
  generalize (if co > 0 then floordiv rhs co else -floordiv rhs (-co) - 1) = x
  refine Ok.bind (Ok.canReuse ti hv) (fun b W1 h1 => ?_)
  obtain ⟨rfl, hb⟩ := canReuse_range h1
  cases b with
  | true =>
    obtain ⟨vs, hvs, hx⟩ := hb rfl
    rw [if_pos rfl]
    cases truth with
    | none => exact Ok.useLit ti (by split_ifs <;> omega) hvs hx
    | some t => exact Ok.useFact ti hvs hx
  | false =>
    obtain ⟨vs, hvs⟩ := some_var hv
    rw [if_neg (by decide)]
    refine Ok.bind (Ok.updateLiteral (ti.wf _ _ hvs) ti.pos hvs) (fun m W2 _ => ?_)
    generalize (if co < 0 then -m else m) = q
    refine Ok.step (addClause_iff.mpr ⟨rfl, rfl⟩) ?_
    split
    · exact Ok.pure
    split
    · exact ⟨_, _, rfl⟩
    · exact Ok.pure

/-- The state of the tables and the number of variables. -/
structure TL (n : Nat) (W : World) : Prop where
  ti : TI W
  len : W.vars.length = n

theorem GotLit.count {var : Nat} {x l : Int} (h : GotLit W var x l W') : W'.vars.length = W.vars.length := by
  cases h <;> simp

theorem UpdLit.count {var : Nat} {x l : Int} {t : Bool} (h : UpdLit W var x t l W') : W'.vars.length = W.vars.length := by
  cases h with
  | got _ _ g => exact g.count
  | fact => simp

theorem TL.log {n : Nat} {log : List SEv} (h : TL n W) : TL n { W with log := log } := ⟨h.ti.other rfl rfl rfl, h.len⟩

theorem TL.lit {n v : Nat} {x l : Int} (h : TL n W) (g : getLiteral cc v x W = .ok (l, W')) : TL n W' :=
  ⟨(ti_prim.literal cc v x).kw _ _ _ g h.ti, by rw [← h.len]; exact (getLiteral_eff h.ti.wf (by have := h.ti.pos; omega) g).count⟩

theorem TL.upd {n v : Nat} {x l : Int} {t : Option Bool} (h : TL n W) (g : updateLiteral cc v x t W = .ok (l, W')) : TL n W' :=
  ⟨(ti_prim.updLiteral cc v x t).kw _ _ _ g h.ti, by
    rw [← h.len]
    rcases updateLiteral_eff h.ti.wf (by have := h.ti.pos; omega) g with ⟨-, t, -, g⟩ | g <;> exact g.count⟩

theorem TL.okLit {n v : Nat} {x : Int} (h : TL n W) (hv : v < n) : Ok (getLiteral cc v x) W := by
  obtain ⟨vs, hvs⟩ := some_var (W := W) (v := v) (by rw [h.len]; exact hv)
  exact Ok.getLiteral (h.ti.wf _ _ hvs) h.ti.pos hvs

theorem TL.okUpd {n v : Nat} {x : Int} {t : Option Bool} (h : TL n W) (hv : v < n) : Ok (updateLiteral cc v x t) W := by
  obtain ⟨vs, hvs⟩ := some_var (W := W) (v := v) (by rw [h.len]; exact hv)
  exact Ok.updateLiteral (h.ti.wf _ _ hvs) h.ti.pos hvs

theorem TL.prevTrue {n v : Nat} {o : Option Int} (h : TL n W) (hv : v < n) : Ok (prevTrue cc v o) W ∧ ∀ l W', prevTrue cc v o W = .ok (l, W') → TL n W' := by
  cases o with
  | none => exact ⟨Ok.pure, fun l W' g => by obtain ⟨-, rfl⟩ := pure_iff.mp g; exact h⟩
  | some p =>
    unfold Clingcon.prevTrue
    refine ⟨Ok.bind (h.okLit hv) (fun _ _ _ => Ok.pure), fun l W' g => ?_⟩
    rw [bind_iff] at g
    obtain ⟨m, W1, g1, g2⟩ := g
    obtain ⟨-, rfl⟩ := pure_iff.mp g2
    exact h.lit g1

theorem TL.succTrue {n v : Nat} {o : Option Int} (h : TL n W) (hv : v < n) : Ok (succTrue cc v o) W ∧ ∀ l W', succTrue cc v o W = .ok (l, W') → TL n W' := by
  cases o with
  | none => exact ⟨Ok.pure, fun l W' g => by obtain ⟨-, rfl⟩ := pure_iff.mp g; exact h⟩
  | some p => exact ⟨h.okLit hv, fun l W' g => h.lit g⟩

theorem TL.addDomLower {n v : Nat} {l : Int} (hv : v < n) : ∀ {d : List (Int × Int)} {o : Option Int} {W : World}, TL n W →
    Ok (addDomLower cc l v o d) W ∧ ∀ r W', addDomLower cc l v o d W = .ok (r, W') → TL n W'
  | [], o, W, h => ⟨Ok.pure, fun l W' g => by obtain ⟨-, rfl⟩ := pure_iff.mp g; exact h⟩
  | (x, y) :: d, o, W, h => by
    unfold Clingcon.addDomLower
    obtain ⟨k1, k2⟩ := h.prevTrue (o := o) hv
    refine ⟨Ok.bind k1 (fun ly W1 g1 => Ok.step (qTrue_iff.mpr ⟨rfl, rfl⟩) (Ok.bind ((k2 _ _ g1).okUpd hv) (fun lx W2 g2 => ?_))), fun r W' g => ?_⟩
    · have t2 := (k2 _ _ g1).upd g2
      refine Ok.step (addClause_iff.mpr ⟨rfl, rfl⟩) ?_
      split
      · exact Ok.pure
      · exact (TL.addDomLower hv t2.log).1
    · simp only [smok] at g
      obtain ⟨ly, W1, g1, t, W2, ⟨rfl, rfl⟩, lx, W3, g3, b, W4, ⟨rfl, rfl⟩, g⟩ := g
      have t3 := (k2 _ _ g1).upd g3
      rcases g with ⟨-, -, rfl⟩ | ⟨-, g⟩
      · exact t3.log
      · exact (TL.addDomLower hv t3.log).2 _ _ g

theorem TL.addDomUpper {n v : Nat} {l : Int} (hv : v < n) : ∀ {d : List (Int × Int)} {o : Option Int} {W : World}, TL n W → Ok (addDomUpper cc l v o d) W
  | [], o, W, h => Ok.pure
  | (x, y) :: d, o, W, h => by
    unfold Clingcon.addDomUpper
    obtain ⟨k1, k2⟩ := h.succTrue (o := o) hv
    refine Ok.bind k1 (fun ly W1 g1 => Ok.step (qTrue_iff.mpr ⟨rfl, rfl⟩) (Ok.bind ((k2 _ _ g1).okUpd hv) (fun lx W2 g2 => ?_)))
    have t2 := (k2 _ _ g1).upd g2
    refine Ok.step (addClause_iff.mpr ⟨rfl, rfl⟩) ?_
    split
    · exact Ok.pure
    · exact TL.addDomUpper hv t2.log

theorem Ok.addDom {l : Int} {v : Nat} {d : List (Int × Int)} (ti : TI W) (hv : v < W.vars.length) : Ok (addDom cc l v d) W := by
  have h : TL W.vars.length W := ⟨ti, rfl⟩
  unfold Clingcon.addDom
  refine Ok.step (qFalse_iff.mpr ⟨rfl, rfl⟩) ?_
  split
  · exact Ok.pure
  refine Ok.step (qTrue_iff.mpr ⟨rfl, rfl⟩) ?_
  refine Ok.bind (h.addDomLower hv).1 (fun b W1 g1 => ?_)
  split
  · exact Ok.pure
  · exact ((h.addDomLower hv).2 _ _ g1).addDomUpper hv

/-! ### Propagating true literals -/

theorem Ok.propagateLit {l : Int} (hf : FC W) (hn : AllNested W) (hl : W.book.levels ≠ []) (ht : cc.isTrue W.log l = true) (h1 : l = TRUE_LIT → cc.level = 0) :
    Ok (propagateLit cc l) W := by
  unfold Clingcon.propagateLit
  refine Ok.stepU (modify_iff.mpr rfl) (Ok.updateDomain (fc_prim.book W _ lv_marks hf) hn ?_ ht h1)
  dsimp only
  rw [show (List.foldl Book.markTodo _ _).levels = _ from congrArg (·.1) lv_marks]
  exact hl

theorem kt_propagateLit {l : Int} : Kt FC (propagateLit cc l) := by
  unfold propagateLit
  refine Kt.bind ⟨fun W u W' h hp => ?_⟩ (fun _ => kt_updateDomain)
  obtain rfl := modify_iff.mp h
  exact fc_prim.book W _ lv_marks hp

theorem lev_propagateLit {l : Int} (hb : BI (frame W)) (h : propagateLit cc l W = .ok (r, W')) : BI (frame W') ∧ W'.book.levels = W.book.levels := by
  have k : Keep (At W.book.levels (alF (frame W), auF (frame W), (frame W).1.length)) (propagateLit cc l) := keep_propagateLit
  have := k.keep _ _ _ h ⟨hb, rfl, fun _ _ _ _ _ => ⟨rfl, rfl⟩, rfl⟩
  exact ⟨this.bi, this.lev⟩

theorem Ok.propagateLits : ∀ {ls : List Int} {W : World}, FC W → AllNested W → BI (frame W) → W.book.levels ≠ [] → EnvMono cc →
    (∀ l ∈ ls, cc.isTrue W.log l = true ∧ (l = TRUE_LIT → cc.level = 0)) → Ok (propagateLits cc ls) W
  | [], W, hf, hn, hb, hl, hm, hall => Ok.pure
  | l :: ls, W, hf, hn, hb, hl, hm, hall => by
    obtain ⟨h1, h2⟩ := hall l (List.mem_cons_self ..)
    unfold Clingcon.propagateLits
    refine Ok.bind (Ok.propagateLit hf hn hl h1 h2) (fun b W1 g1 => ?_)
    cases b with
    | false => exact Ok.pure
    | true =>
      rw [if_neg (by decide)]
      have hs := (kw_propagateLit (lg_prim (W0 := W)).toPrimU.toPrimD).kw _ _ _ g1 (LG.refl hf.ti)
      obtain ⟨b1, e1⟩ := lev_propagateLit hb g1
      exact Ok.propagateLits (kt_propagateLit.kt _ _ g1 hf) ((kw_propagateLit nested_prim.toPrimU.toPrimD).kw _ _ _ g1 hn) b1 (by rw [e1]; exact hl) hm
        (fun m hm' => ⟨isTrue_suffix hm hs.log (hall m (List.mem_cons_of_mem _ hm')).1, (hall m (List.mem_cons_of_mem _ hm')).2⟩)

theorem WI.ne (h : WI W) : W.book.levels ≠ [] := by
  intro e
  have := h.base
  rw [e] at this
  cases this

theorem Ok.solverPropagate {ls : List Int} (hf : FC W) (hn : AllNested W) (hw : WI W) (hp : W.level < cc.level → W.settled) (hm : EnvMono cc)
    (hall : ∀ l ∈ ls, cc.isTrue W.log l = true ∧ (l = TRUE_LIT → cc.level = 0)) : Ok (solverPropagate cc ls) W := by
  obtain ⟨l, rest, hl⟩ := List.exists_cons_of_ne_nil hw.ne
  unfold Clingcon.solverPropagate
  refine Ok.bind ?_ (fun _ W1 h1 => ?_)
  · unfold Clingcon.pushLevel
    exact Ok.step (curLevel_iff.mpr ⟨by rw [hl]; rfl, rfl⟩) (Ok.whenS (fun _ => Ok.modify))
  · obtain ⟨b1, -, -⟩ := pushLevel_eff h1 hw.bi hp
    have k : FC W1 ∧ AllNested W1 ∧ W1.log = W.log ∧ W1.book.levels ≠ [] := by
      unfold pushLevel at h1
      simp only [smok] at h1
      obtain ⟨l, W1, ⟨-, rfl⟩, ⟨-, rfl⟩ | ⟨-, rfl⟩⟩ := h1
      · exact ⟨fc_prim.levels _ _ hf, hn, rfl, List.cons_ne_nil _ _⟩
      · exact ⟨hf, hn, rfl, hw.ne⟩
    exact Ok.propagateLits k.1 k.2.1 b1 k.2.2.2 hm (fun m hm' => by rw [k.2.2.1]; exact hall m hm')

/-! ### Leaving a level -/

theorem undoLowerVar_vars {v : Nat} {u : Unit} (h : undoLowerVar v W = .ok (u, W')) :
    ∃ vs vs', W.vars[v]? = some vs ∧ vs'.upperStack = vs.upperStack ∧ W'.vars = W.vars.set v vs' ∧ W'.book.levels = W.book.levels ∧ W'.book.undoUpper = W.book.undoUpper := by
  unfold undoLowerVar at h
  simp only [smok] at h
  obtain ⟨vs, W1, ⟨h1, rfl⟩, vs', W2, ⟨h2, rfl⟩, _, W3, rfl, rfl⟩ := h
  refine ⟨vs, vs', h1, ?_, rfl, rfl, rfl⟩
  unfold VarState.popLower at h2
  split at h2
  · cases h2
  · injection h2 with h2
    subst h2
    rfl

theorem undoUpperVar_vars {v : Nat} {u : Unit} (h : undoUpperVar v W = .ok (u, W')) :
    ∃ vs vs', W.vars[v]? = some vs ∧ W'.vars = W.vars.set v vs' ∧ W'.book.levels = W.book.levels := by
  unfold undoUpperVar at h
  simp only [smok] at h
  obtain ⟨vs, W1, ⟨h1, rfl⟩, vs', W2, ⟨h2, rfl⟩, _, W3, rfl, rfl⟩ := h
  exact ⟨vs, vs', h1, rfl, rfl⟩

theorem Ok.undoLowers : ∀ {vs : List Nat} {W : World}, vs.Nodup → (∀ v ∈ vs, ∃ s, W.vars[v]? = some s ∧ s.lowerStack ≠ []) → Ok (undoLowers vs) W
  | [], W, hd, hs => Ok.pure
  | v :: vs, W, hd, hs => by
    unfold Clingcon.undoLowers
    refine Ok.bind ?_ (fun _ W1 h1 => ?_)
    · obtain ⟨s, h1, h2⟩ := hs v (List.mem_cons_self ..)
      obtain ⟨p, st, h3⟩ := List.exists_cons_of_ne_nil h2
      unfold Clingcon.undoLowerVar
      have h4 : s.popLower = .ok { s with lower := p.2, lowerStack := st } := by unfold VarState.popLower; rw [h3]
      exact Ok.step (getVar_iff.mpr ⟨h1, rfl⟩) (Ok.step (liftRes_iff.mpr ⟨h4, rfl⟩) (Ok.stepU (setVar_iff.mpr rfl) Ok.modify))
    · obtain ⟨s, s', g1, -, g2, -, -⟩ := undoLowerVar_vars h1
      refine Ok.undoLowers (List.nodup_cons.mp hd).2 (fun u hu => ?_)
      have : v ≠ u := by rintro rfl; exact (List.nodup_cons.mp hd).1 hu
      rw [g2, List.getElem?_set_ne this]
      exact hs u (List.mem_cons_of_mem _ hu)

theorem Ok.undoUppers : ∀ {vs : List Nat} {W : World}, vs.Nodup → (∀ v ∈ vs, ∃ s, W.vars[v]? = some s ∧ s.upperStack ≠ []) → Ok (undoUppers vs) W
  | [], W, hd, hs => Ok.pure
  | v :: vs, W, hd, hs => by
    unfold Clingcon.undoUppers
    refine Ok.bind ?_ (fun _ W1 h1 => ?_)
    · obtain ⟨s, h1, h2⟩ := hs v (List.mem_cons_self ..)
      obtain ⟨p, st, h3⟩ := List.exists_cons_of_ne_nil h2
      unfold Clingcon.undoUpperVar
      have h4 : s.popUpper = .ok { s with upper := p.2, upperStack := st } := by unfold VarState.popUpper; rw [h3]
      exact Ok.step (getVar_iff.mpr ⟨h1, rfl⟩) (Ok.step (liftRes_iff.mpr ⟨h4, rfl⟩) (Ok.stepU (setVar_iff.mpr rfl) Ok.modify))
    · obtain ⟨s, s', g1, g2, -⟩ := undoUpperVar_vars h1
      refine Ok.undoUppers (List.nodup_cons.mp hd).2 (fun u hu => ?_)
      have : v ≠ u := by rintro rfl; exact (List.nodup_cons.mp hd).1 hu
      rw [g2, List.getElem?_set_ne this]
      exact hs u (List.mem_cons_of_mem _ hu)

theorem undoLowers_upper : ∀ {vs : List Nat} {W W' : World} {u : Unit}, undoLowers vs W = .ok (u, W') →
    (∀ (v : Nat) (s : VarState), W.vars[v]? = some s → ∃ s' : VarState, W'.vars[v]? = some s' ∧ s'.upperStack = s.upperStack) ∧ W'.book.levels = W.book.levels ∧ W'.book.undoUpper = W.book.undoUpper
  | [], W, W', u, h => by obtain ⟨-, rfl⟩ := pure_iff.mp h; exact ⟨fun v s hs => ⟨s, hs, rfl⟩, rfl, rfl⟩
  | v :: vs, W, W', u, h => by
    unfold undoLowers at h
    rw [bind_iff] at h
    obtain ⟨_, W1, h1, h2⟩ := h
    obtain ⟨t, t', g1, g2, g3, g4, g5⟩ := undoLowerVar_vars h1
    obtain ⟨k1, k2, k3⟩ := undoLowers_upper h2
    refine ⟨fun x s hs => ?_, k2.trans g4, k3.trans g5⟩
    by_cases hx : v = x
    · subst hx
      rw [g1] at hs
      injection hs with hs
      subst hs
      obtain ⟨s', e1, e2⟩ := k1 v t' (by rw [g3]; exact List.getElem?_set_self (List.getElem?_eq_some_iff.mp g1).1)
      exact ⟨s', e1, e2.trans g2⟩
    · exact k1 x s (by rw [g3, List.getElem?_set_ne hx]; exact hs)

theorem undoUppers_levels : ∀ {vs : List Nat} {W W' : World} {u : Unit}, undoUppers vs W = .ok (u, W') → W'.book.levels = W.book.levels
  | [], W, W', u, h => by obtain ⟨-, rfl⟩ := pure_iff.mp h; rfl
  | v :: vs, W, W', u, h => by
    unfold undoUppers at h
    rw [bind_iff] at h
    obtain ⟨_, W1, h1, h2⟩ := h
    obtain ⟨t, t', g1, g2, g3⟩ := undoUpperVar_vars h1
    exact (undoUppers_levels h2).trans g3

theorem Ok.solverUndo (hw : WI W) (hl : W.book.levels.length ≠ 1) : Ok solverUndo W := by
  obtain ⟨l, rest, hle⟩ := List.exists_cons_of_ne_nil hw.ne
  obtain ⟨l2, rest2, rfl⟩ : ∃ l2 rest2, rest = l2 :: rest2 := List.exists_cons_of_ne_nil (by rintro rfl; rw [hle] at hl; exact hl rfl)
  have hlev : l.level ≠ 0 := by
    have := hw.bi.dec
    simp only [frame] at this
    rw [hle] at this
    have : l.level > l2.level := (List.pairwise_cons.mp this).1 l2.level (by simp)
    omega
  have hseg : (l.level, W.book.undoLower.drop l.undoLowerOff) ∈ cuts Lvl.undoLowerOff (frame W).2.levels (frame W).2.undoLower := by
    show _ ∈ cuts Lvl.undoLowerOff W.book.levels W.book.undoLower
    rw [hle]
    exact List.mem_cons_self ..
  have hsegU : (l.level, W.book.undoUpper.drop l.undoUpperOff) ∈ cuts Lvl.undoUpperOff (frame W).2.levels (frame W).2.undoUpper := by
    show _ ∈ cuts Lvl.undoUpperOff W.book.levels W.book.undoUpper
    rw [hle]
    exact List.mem_cons_self ..
  have hlow : ∀ v ∈ W.book.undoLower.drop l.undoLowerOff, ∃ s, W.vars[v]? = some s ∧ s.lowerStack ≠ [] := by
    intro v hv
    obtain ⟨b, hb⟩ := (hw.bi.low.mem _ hseg (by dsimp only; omega) v).mp hv
    unfold lstF at hb
    dsimp only [frame] at hb
    split at hb
    · rename_i s hs
      rw [List.getElem?_map] at hs
      obtain ⟨t, ht, rfl⟩ := Option.map_eq_some_iff.mp hs
      exact ⟨t, ht, List.ne_nil_of_mem hb⟩
    · cases hb
  have hupp : ∀ v ∈ W.book.undoUpper.drop l.undoUpperOff, ∃ s, W.vars[v]? = some s ∧ s.upperStack ≠ [] := by
    intro v hv
    obtain ⟨b, hb⟩ := (hw.bi.upp.mem _ hsegU (by dsimp only; omega) v).mp hv
    unfold ustF at hb
    dsimp only [frame] at hb
    split at hb
    · rename_i s hs
      rw [List.getElem?_map] at hs
      obtain ⟨t, ht, rfl⟩ := Option.map_eq_some_iff.mp hs
      refine ⟨t, ht, ?_⟩
      intro e
      have e : (bounds t).upperStack = [] := e
      rw [e] at hb
      cases hb
    · cases hb
  unfold Clingcon.solverUndo
  refine Ok.step (curLevel_iff.mpr ⟨by rw [hle]; rfl, rfl⟩) (Ok.stepU (assertS_iff.mpr ⟨decide_eq_true hlev, rfl⟩) ?_)
  refine Ok.bind ?_ (fun _ W1 h1 => ?_)
  · unfold Clingcon.levelUndo
    refine Ok.step (get_iff.mpr ⟨rfl, rfl⟩) (Ok.bind (Ok.undoLowers (hw.bi.low.nodup _ hseg) hlow) (fun _ W1 h1 => ?_))
    obtain ⟨k1, k2, k3⟩ := undoLowers_upper h1
    refine Ok.stepU (modify_iff.mpr rfl) (Ok.step (get_iff.mpr ⟨rfl, rfl⟩) ?_)
    refine Ok.bind (Ok.undoUppers ?_ ?_) (fun _ W2 h2 => Ok.bind Ok.modify (fun _ _ _ => Ok.modify))
    · dsimp only
      rw [k3]
      exact hw.bi.upp.nodup _ hsegU
    · dsimp only
      rw [k3]
      intro v hv
      obtain ⟨s, g1, g2⟩ := hupp v hv
      obtain ⟨s', g3, g4⟩ := k1 v s g1
      exact ⟨s', g3, by rw [g4]; exact g2⟩
  · have e : W1.book.levels = W.book.levels := by
      unfold levelUndo at h1
      simp only [smok] at h1
      obtain ⟨X, W2, ⟨rfl, rfl⟩, _, W3, g1, _, W4, rfl, X, W5, ⟨rfl, rfl⟩, _, W6, g2, _, W7, rfl, rfl⟩ := h1
      have e1 := (undoLowers_upper g1).2.1
      have e2 := undoUppers_levels g2
      dsimp only at e2 ⊢
      unfold Book.undoRest
      dsimp only
      rw [e2, e1]
    refine Ok.stepU (modify_iff.mpr rfl) (Ok.discard ⟨l2, _, curLevel_iff.mpr ⟨?_, rfl⟩⟩)
    dsimp only
    rw [e, hle]
    rfl

/-! ### Adding and removing constraints -/

theorem Ok.sumBounds : ∀ {es : List (Int × Nat)} {W : World}, (∀ p ∈ es, p.2 < W.vars.length) → ∃ p, sumBounds es W = .ok (p, W)
  | [], W, h => ⟨_, rfl⟩
  | (co, v) :: es, W, h => by
    obtain ⟨vs, hv⟩ := some_var (h _ (List.mem_cons_self ..))
    obtain ⟨p, hp⟩ := Ok.sumBounds (W := W) (fun q hq => h q (List.mem_cons_of_mem _ hq))
    unfold Clingcon.sumBounds
    by_cases hc : co > 0
    · exact ⟨_, bind_iff.mpr ⟨vs, W, getVar_iff.mpr ⟨hv, rfl⟩, bind_iff.mpr ⟨p, W, hp, by rw [if_pos hc]; rfl⟩⟩⟩
    · exact ⟨_, bind_iff.mpr ⟨vs, W, getVar_iff.mpr ⟨hv, rfl⟩, bind_iff.mpr ⟨p, W, hp, by rw [if_neg hc]; rfl⟩⟩⟩

theorem Ok.distinctInit : ∀ {es : List (List (Int × Nat) × Int)} {i : Nat} {c : CState} {W : World}, (∀ q ∈ distinctWatches i es, q.2 < W.vars.length) →
    ∃ c', distinctInit i es c W = .ok (c', W)
  | [], i, c, W, h => ⟨_, rfl⟩
  | (e, f) :: es, i, c, W, h => by
    unfold distinctWatches at h
    obtain ⟨p, hp⟩ := Ok.sumBounds (es := e) (W := W) (fun q hq => h (if q.1 > 0 then (i : Int) + 1 else -(i : Int) - 1, q.2) (List.mem_append_left _ (List.mem_map.mpr ⟨q, hq, rfl⟩)))
    unfold Clingcon.distinctInit
    obtain ⟨c', hc⟩ := Ok.distinctInit (es := es) (i := i + 1) (W := W) (c := { c with
      assigned := c.assigned ++ [(p.1 + f, p.2 + f)]
      lowerSet := setInsert (p.1 + f, i) c.lowerSet
      upperSet := setInsert (p.2 + f, i) c.upperSet }) (fun q hq => h q (List.mem_append_right _ hq))
    exact ⟨c', bind_iff.mpr ⟨p, W, hp, hc⟩⟩

theorem Ok.initState {c : Constr} (h : ∀ q ∈ c.watches, q.2 < W.vars.length) : ∃ cs, initState c W = .ok (cs, W) := by
  cases c with
  | sum l r es =>
    obtain ⟨p, hp⟩ := Ok.sumBounds (es := es) h
    exact ⟨_, bind_iff.mpr ⟨p, W, hp, rfl⟩⟩
  | minimize a es =>
    obtain ⟨p, hp⟩ := Ok.sumBounds (es := es) h
    exact ⟨_, bind_iff.mpr ⟨p, W, hp, rfl⟩⟩
  | distinct l es => exact Ok.distinctInit h
  | disjoint l es => exact ⟨_, rfl⟩
  | nonlinear l ca x y cb z r => exact ⟨_, rfl⟩

theorem Ok.addVarWatches {n : Nat} : ∀ {ws : List (Int × Nat)} {W : World}, (∀ q ∈ ws, q.2 < W.book.watches.length) → Ok (addVarWatches n ws) W
  | [], W, h => Ok.pure
  | (i, v) :: ws, W, h => by
    unfold Clingcon.addVarWatches Clingcon.addVarWatch
    refine Ok.bind (Ok.step (get_iff.mpr ⟨rfl, rfl⟩) (Ok.stepU (assertS_iff.mpr ⟨decide_eq_true (h _ (List.mem_cons_self ..)), rfl⟩) Ok.modify)) (fun _ W1 h1 => ?_)
    refine Ok.addVarWatches (fun q hq => ?_)
    simp only [smok] at h1
    obtain ⟨X, W2, ⟨rfl, rfl⟩, _, W3, ⟨-, rfl⟩, rfl⟩ := h1
    dsimp only
    rw [List.length_modify]
    exact h q (List.mem_cons_of_mem _ hq)

theorem Ok.addConstraint {c : Constr} (hw : WI W) (h : ∀ v ∈ varsOf c, v < W.vars.length) : Ok (addConstraint c) W := by
  have h' : ∀ q ∈ c.watches, q.2 < W.vars.length := fun q hq => h _ (List.mem_map.mpr ⟨q, hq, rfl⟩)
  obtain ⟨cs, g⟩ := Ok.initState h'
  unfold Clingcon.addConstraint
  refine Ok.step g (Ok.step (get_iff.mpr ⟨rfl, rfl⟩) (Ok.stepU (modify_iff.mpr rfl) ?_))
  have hl : W.book.watches.length = W.vars.length := by simpa [frame] using hw.bi.lenW
  refine Ok.bind (Ok.addVarWatches ?_) (fun _ _ _ => Ok.bind Ok.modify (fun _ _ _ => Ok.pure))
  dsimp only
  rw [hl]
  exact h'

theorem count_tag {β : Type} [DecidableEq β] {n : β} {i : Int} : ∀ {l : List (Int × β)}, ((l.filter (fun w => decide (w.2 = n))).map (·.1)).count i = l.count (i, n)
  | [] => rfl
  | (j, m) :: l => by
    have ih := count_tag (n := n) (i := i) (l := l)
    by_cases hm : m = n
    · subst hm
      rw [List.filter_cons_of_pos (by simp), List.map_cons, List.count_cons, List.count_cons, ih]
      simp
    · rw [List.filter_cons_of_neg (by simpa using hm), List.count_cons, ih]
      simp [hm]

theorem Ok.removeVarWatches {n : Nat} : ∀ {ws : List (Int × Nat)} {W : World}, (∀ q ∈ ws, q.2 < W.book.watches.length) →
    (∀ v i, (W.book.watches.getD v []).count (i, n) = ws.count (i, v)) → Ok (removeVarWatches n ws) W
  | [], W, h, hc => Ok.pure
  | (i, v) :: ws, W, h, hc => by
    have hv : v < W.book.watches.length := h _ (List.mem_cons_self ..)
    unfold Clingcon.removeVarWatches Clingcon.removeVarWatch
    refine Ok.bind (Ok.step (get_iff.mpr ⟨rfl, rfl⟩) (Ok.stepU (assertS_iff.mpr ⟨decide_eq_true hv, rfl⟩) (Ok.stepU (assertS_iff.mpr ⟨?_, rfl⟩) Ok.modify))) (fun _ W1 h1 => ?_)
    · rw [List.contains_iff_mem, ← List.count_pos_iff, hc v i, List.count_cons_self]
      omega
    simp only [smok] at h1
    obtain ⟨X, W2, ⟨rfl, rfl⟩, _, W3, ⟨-, rfl⟩, _, W4, ⟨-, rfl⟩, rfl⟩ := h1
    refine Ok.removeVarWatches (fun q hq => ?_) (fun u j => ?_)
    · dsimp only
      rw [List.length_modify]
      exact h q (List.mem_cons_of_mem _ hq)
    · have := hc u j
      rw [List.count_cons] at this
      dsimp only
      rw [List.getD_eq_getElem?_getD, List.getElem?_modify]
      rw [List.getD_eq_getElem?_getD] at this
      by_cases hu : v = u
      · subst hu
        rw [List.getElem?_eq_getElem hv] at this ⊢
        simp only [Option.map_eq_map, Option.map_some, Option.getD_some, if_true] at this ⊢
        rw [List.count_erase]
        by_cases hj : j = i
        · subst hj; simp at this ⊢; omega
        · have : i ≠ j := fun e => hj e.symm
          simp [this] at *
          assumption
      · simp only [Option.map_eq_map, hu, if_false]
        rw [show (fun a : List (Int × Nat) => a) = id from rfl, Option.map_id]
        simpa [hu] using this

theorem removeVarWatches_watches {n : Nat} : ∀ {ws : List (Int × Nat)} {W W' : World} {u : Unit}, removeVarWatches n ws W = .ok (u, W') →
    ∃ ws', W' = { W with book.watches := ws' }
  | [], W, W', u, h => by obtain ⟨-, rfl⟩ := pure_iff.mp h; exact ⟨_, rfl⟩
  | (i, v) :: ws, W, W', u, h => by
    unfold removeVarWatches removeVarWatch at h
    simp only [smok] at h
    obtain ⟨_, W1, ⟨X, W2, ⟨rfl, rfl⟩, _, W3, ⟨-, rfl⟩, _, W4, ⟨-, rfl⟩, rfl⟩, h⟩ := h
    obtain ⟨ws', rfl⟩ := removeVarWatches_watches h
    exact ⟨ws', rfl⟩

theorem Ok.removeConstraint {n : Nat} {c : CState} (hw : WI W) (hl : W.book.levels.length = 1) (hc : W.book.cs[n]? = some c) (ha : c.alive = true) :
    Ok (removeConstraint n) W := by
  have hb := hw.b0 hl
  have hlen : W.book.watches.length = W.vars.length := by simpa [frame] using hw.bi.lenW
  have key : ∀ v i, (W.book.watches.getD v []).count (i, n) = c.con.watches.count (i, v) := by
    intro v i
    have := ((hb.track n c hc ha).2 v).1.count_eq i
    unfold own at this
    rw [← count_tag, ← count_tag]
    simpa [wtF, frame, beq_eq_decide] using this
  unfold Clingcon.removeConstraint
  refine Ok.step (get_iff.mpr ⟨rfl, rfl⟩) ?_
  rw [hc]
  refine Ok.bind (Ok.removeVarWatches (fun q hq => ?_) key) (fun _ W1 h1 => ?_)
  · by_contra hge
    have h0 : (W.book.watches.getD q.2 []) = [] := by
      rw [List.getD_eq_getElem?_getD, List.getElem?_eq_none (by omega)]; rfl
    have := key q.2 q.1
    rw [h0] at this
    have hp := List.count_pos_iff.mpr hq
    simp at this
    omega
  · have e : W1.book.levels = [baseLvl] := by
      obtain ⟨ws', rfl⟩ := removeVarWatches_watches h1
      exact hw.levels hl
    refine Ok.step (curLevel_iff.mpr ⟨by rw [e]; rfl, rfl⟩) (Ok.stepU (assertS_iff.mpr ⟨rfl, rfl⟩) Ok.modify)

/-! ### Removing order literals -/

theorem Ok.dropLit {i : Nat} {e : LitmapEntry} (ti : TI W) (he : W.litmap[i]? = some e) (hp : e.prev ≠ 0) : Ok (dropLit (i + 1 : Nat) e) W := by
  obtain ⟨-, vs, hvs, -⟩ := ti.link _ _ he hp
  have hm := ti.mem _ _ he hp vs hvs
  obtain ⟨vs', g, -⟩ := unsetLiteral_ok (ti.wf _ _ hvs) (Or.inr ⟨_, hm⟩)
  have hlen := (List.getElem?_eq_some_iff.mp hvs).1
  unfold Clingcon.dropLit
  refine Ok.step (getVar_iff.mpr ⟨hvs, rfl⟩) (Ok.step (liftRes_iff.mpr ⟨g, rfl⟩) (Ok.stepU (setVar_iff.mpr rfl) ?_))
  refine Ok.stepU (discard_iff.mpr ⟨_, updateLitmap_iff.mpr ⟨_, List.getElem?_set_self (by simpa using hlen), rfl, rfl⟩⟩) ?_
  exact ⟨(), _, unsetEntry_iff.mpr rfl⟩

theorem Ok.updateStep {m : Nat} : ∀ {n o : Nat} {W : World}, TI W → Ok (updateStep m n o) W
  | 0, o, W, hi => Ok.pure
  | n + 1, o, W, hi => by
    unfold Clingcon.updateStep
    refine Ok.step (litmapAt_iff.mpr ⟨rfl, rfl⟩) (Ok.bind (Ok.whenS (fun hc => ?_)) (fun _ W1 h1 => ?_))
    · have hp : (entryAt W.litmap ((o + 1 : Nat) : Int)).prev ≠ 0 := by
        simp only [LitmapEntry.invalid, Bool.and_eq_true] at hc
        simpa using hc.1
      exact Ok.dropLit hi (entry_get hp) hp
    · refine Ok.updateStep ?_
      rcases whenS_iff.mp h1 with ⟨hc, h2⟩ | ⟨-, rfl⟩
      · have hp : (entryAt W.litmap ((o + 1 : Nat) : Int)).prev ≠ 0 := by
          simp only [LitmapEntry.invalid, Bool.and_eq_true] at hc
          simpa using hc.1
        exact hi.ti_dropLit (entry_get hp) hp h2
      · exact hi

/-! ### All calls -/

/-- What holds between calls. -/
structure SafeInv (W : World) : Prop where
  fc : FC W
  nested : AllNested W
  wi : WI W

theorem Ok.exec {op : Op} (h : SafeInv W) (hp : op.pre W) (hm : mustReturn W op) : Ok op.exec W := by
  cases op with
  | addVar lo hi => exact Ok.bind (Ok.discard ⟨_, _, rfl⟩) (fun _ _ _ => Ok.pure)
  | literal cc v x =>
    obtain ⟨vs, hv⟩ := some_var hm
    exact Ok.bind (Ok.discard (Ok.getLiteral (h.fc.ti.wf _ _ hv) h.fc.ti.pos hv)) (fun _ _ _ => Ok.pure)
  | updLiteral cc v x t =>
    obtain ⟨vs, hv⟩ := some_var hm
    exact Ok.bind (Ok.discard (Ok.updateLiteral (h.fc.ti.wf _ _ hv) h.fc.ti.pos hv)) (fun _ _ _ => Ok.pure)
  | simple cc l co v r s => exact Ok.addSimple h.fc.ti hp.1 hm.1
  | dom cc l v d => exact Ok.addDom h.fc.ti hm
  | addConstraint c => exact Ok.bind (Ok.discard (Ok.addConstraint h.wi hm)) (fun _ _ _ => Ok.pure)
  | removeConstraint n =>
    obtain ⟨c, hc, ha⟩ := hm
    exact Ok.bind (Ok.removeConstraint h.wi hp hc ha) (fun _ _ _ => Ok.pure)
  | removeConstraints rem => exact Ok.bind Ok.modify (fun _ _ _ => Ok.pure)
  | updateMinimize n l b => exact Ok.bind Ok.modify (fun _ _ _ => Ok.pure)
  | enable => exact Ok.bind Ok.modify (fun _ _ _ => Ok.pure)
  | fresh => exact ⟨_, _, fresh_iff.mpr ⟨rfl, rfl⟩⟩
  | post e => exact ⟨_, _, post_iff.mpr ⟨rfl, rfl⟩⟩
  | propagate cc ls => exact Ok.solverPropagate h.fc h.nested h.wi hp hm.1 hm.2
  | undo => exact Ok.bind (Ok.solverUndo h.wi hm) (fun _ _ _ => Ok.pure)
  | update n =>
    refine Ok.bind ?_ (fun _ _ _ => Ok.pure)
    unfold solverUpdate
    exact Ok.stepU (modify_iff.mpr rfl) (Ok.step (get_iff.mpr ⟨rfl, rfl⟩) (Ok.updateStep (h.fc.ti.other rfl rfl rfl)))
  | _ => exact hm.elim

end Clingcon
