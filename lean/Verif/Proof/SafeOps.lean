import Verif.Proof.SafeDomain
import Verif.Spec.Safe

/-! Recorded facts stay in the tables in all sequences of calls up to a conflict on the top level. -/
set_option linter.unusedSimpArgs false
set_option linter.unusedVariables false
namespace Clingcon
open Spec VarState

variable {α γ : Type} {W W0 W' : World} {cc : CC} {r : Bool} {P : World → Prop}

theorem FC.upd {var : Nat} {x l : Int} {t : Bool} (h : FC W) (ti : TI W') (g : UpdLit W var x t l W') : FC W' := by
  cases g with
  | got _ _ g =>
    have := FS.got h g
    rw [← g.factmap] at this
    exact this
  | fact vs vs' hv h1 h2 h3 hs =>
    have sep : ∀ v k l, OrdLit W v k l → ¬ (v = var ∧ k = x) := by
      rintro v k l ⟨us, hu, hm⟩ ⟨rfl, rfl⟩
      rw [hv] at hu
      injection hu with hu
      subst hu
      exact h3 l hm
    refine ⟨ti, fun q hq => ?_, ?_⟩
    · rcases List.mem_append.mp hq with hq | hq
      · obtain ⟨a, ho⟩ := h.ord q hq
        refine ⟨a, ord_keep (W := W) rfl hv (fun e hm => ?_) ho⟩
        rw [hs.mem, if_neg (fun hk => sep _ _ _ ho ⟨e, hk⟩)]
        exact hm
      · obtain rfl := List.mem_singleton.mp hq
        dsimp only
        refine ⟨by cases t <;> rfl, ord_at (W := W) rfl hv ?_⟩
        rw [hs.mem, if_pos rfl]
    · refine List.pairwise_append.mpr ⟨h.dist, List.pairwise_singleton _ _, fun p hp q hq => ?_⟩
      obtain rfl := List.mem_singleton.mp hq
      exact fun e => sep _ _ _ (h.ord p hp).2 ⟨e.1.symm, e.2.symm⟩

theorem fc_prim : PrimP FC where
  book W _ _ h := FS.of h (h.ti.other rfl rfl rfl) (fun _ _ _ _ h => h)
  event W _ _ h := FS.of h (h.ti.other rfl rfl rfl) (fun _ _ _ _ h => h)
  levels W _ h := FS.of h (h.ti.other rfl rfl rfl) (fun _ _ _ _ h => h)
  literal cc v x := ⟨fun W a W' hx h => by
    have g := getLiteral_eff h.ti.wf (by have := h.ti.pos; omega) hx
    have := FS.got h g
    rw [← g.factmap] at this
    exact this⟩
  updLiteral cc v x t := ⟨fun W a W' hx h => by
    have ti := (ti_prim.updLiteral cc v x t).kw _ _ _ hx h.ti
    rcases updateLiteral_eff h.ti.wf (by have := h.ti.pos; omega) hx with ⟨-, t, -, g⟩ | g
    · exact h.upd ti g
    · have := FS.got h g
      rw [← g.factmap] at this
      exact this⟩
  popLower v := ⟨fun W a W' hx h => by
    obtain ⟨-, e, k⟩ := undoLowerVar_ord hx
    unfold FC
    rw [e]
    exact FS.of h ((ti_prim.popLower v).kw _ _ _ hx h.ti) (fun v k' l _ hl => (k v k' l).mpr hl)⟩
  popUpper v := ⟨fun W a W' hx h => by
    obtain ⟨-, e, k⟩ := undoUpperVar_ord hx
    unfold FC
    rw [e]
    exact FS.of h ((ti_prim.popUpper v).kw _ _ _ hx h.ti) (fun v k' l _ hl => (k v k' l).mpr hl)⟩

/-! ### Calls that succeed -/

/-- The property is preserved if the result is positive. -/
structure Kt (P : World → Prop) (x : SM Bool) : Prop where
  kt : ∀ W W', x W = .ok (true, W') → P W → P W'

theorem Kt.of {x : SM Bool} (h : Kw P x) : Kt P x := ⟨fun W W' => h.kw W true W'⟩
theorem Kt.bind {x : SM α} {f : α → SM Bool} (hx : Kw P x) (hf : ∀ a, Kt P (f a)) : Kt P (x >>= f) := by
  refine ⟨fun W W' h hp => ?_⟩
  obtain ⟨a, W1, h1, h2⟩ := SM.bind_ok h
  exact (hf a).kt _ _ h2 (hx.kw _ _ _ h1 hp)
theorem Kt.andThen {x y : SM Bool} (hx : Kt P x) (hy : Kt P y) : Kt P (x >>= fun b => if (!b) = true then Pure.pure false else y) := by
  refine ⟨fun W W' h hp => ?_⟩
  obtain ⟨a, W1, h1, h2⟩ := SM.bind_ok h
  cases a with
  | false =>
    obtain ⟨h, -⟩ := pure_iff.mp h2
    cases h
  | true => exact hy.kt _ _ h2 (hx.kt _ _ h1 hp)
theorem Kt.ite {c : Prop} [Decidable c] {x y : SM Bool} (hx : Kt P x) (hy : Kt P y) : Kt P (if c then x else y) := by
  split
  · exact hx
  · exact hy

theorem kt_updateDomain {l : Int} : Kt FC (updateDomain cc l) := ⟨fun W W' h hp => hp.updateDomain h (Or.inl rfl)⟩
theorem kt_integrateFacts : Kt FC (integrateFacts cc) := by
  unfold integrateFacts
  refine Kt.bind (Kw.same fun W a W' h => (get_iff.mp h).2) (fun W1 => ?_)
  split
  · exact Kt.of Kw.pure
  · exact Kt.bind Kw.assertS (fun _ => kt_updateDomain)

theorem kt_checkLoop {b : Bool} {lvl : Nat} : ∀ {n : Nat}, Kt FC (checkLoop cc b lvl n)
  | 0 => Kt.of Kw.ub
  | n + 1 => by
    have hP : Prim0 FC := fc_prim.toPrim0
    unfold checkLoop
    refine Kt.andThen kt_integrateFacts ?_
    refine Kt.bind (by kw_auto) (fun _ => Kt.bind (by kw_auto) (fun X => Kt.bind (by kw_auto) (fun ret => Kt.bind (by kw_auto) (fun _ => Kt.bind (by kw_auto) (fun Y => ?_)))))
    split
    · exact Kt.of Kw.pure
    · exact kt_checkLoop

theorem kt_solverCheck {b : Bool} {n : Nat} : Kt FC (solverCheck cc b n) := by
  unfold solverCheck
  refine Kt.bind (Kw.same fun W a W' h => (curLevel_iff.mp h).2) (fun l => Kt.bind (Kw.same fun W a W' h => (get_iff.mp h).2) (fun X => ?_))
  split
  · exact Kt.of Kw.pure
  · exact kt_checkLoop

theorem kt_propagateLits : ∀ {ls : List Int}, Kt FC (propagateLits cc ls)
  | [] => Kt.of Kw.pure
  | l :: ls => by
    unfold propagateLits
    refine Kt.andThen ?_ kt_propagateLits
    unfold propagateLit
    refine Kt.bind ⟨fun W u W' h hp => ?_⟩ (fun _ => kt_updateDomain)
    obtain rfl := modify_iff.mp h
    exact fc_prim.book W _ lv_marks hp

theorem kt_solverPropagate {ls : List Int} : Kt FC (solverPropagate cc ls) := by
  have hP : PrimP FC := fc_prim
  unfold solverPropagate
  refine Kt.bind ⟨fun W u W' h hp => ?_⟩ (fun _ => kt_propagateLits)
  unfold pushLevel at h
  simp only [smok] at h
  obtain ⟨l, W1, ⟨-, rfl⟩, ⟨-, rfl⟩ | ⟨-, rfl⟩⟩ := h
  · exact fc_prim.levels _ _ hp
  · exact hp

theorem kt_factLoop {t : List SEv → List Int} {b : Bool} {m : Nat} : ∀ {n : Nat}, Kt FC (factLoop cc t b m n)
  | 0 => Kt.of Kw.ub
  | n + 1 => by
    have hP : Prim0 FC := fc_prim.toPrim0
    unfold factLoop
    refine Kt.andThen (Kt.of (by kw_auto)) (Kt.bind (by kw_auto) (fun X => ?_))
    dsimp only
    split
    · exact Kt.of Kw.pure
    refine Kt.andThen kt_solverPropagate (Kt.bind ⟨fun W u W' h hp => ?_⟩ (fun _ => Kt.andThen kt_solverCheck kt_factLoop))
    obtain rfl := modify_iff.mp h
    exact FS.of hp (hp.ti.other rfl rfl rfl) (fun _ _ _ _ h => h)

/-! ### Calls below the top level -/

theorem kd_updateDomain {l : Int} (h : cc.level ≠ 0) : Kw FC (updateDomain cc l) := ⟨fun W a W' hx hp => hp.updateDomain hx (Or.inr h)⟩

theorem kd_propagateLits (h : cc.level ≠ 0) : ∀ {ls : List Int}, Kw FC (propagateLits cc ls)
  | [] => Kw.pure
  | l :: ls => by
    unfold propagateLits
    refine Kw.bind ?_ (fun b => ?_)
    · unfold propagateLit
      refine Kw.bind ⟨fun W u W' h hp => ?_⟩ (fun _ => kd_updateDomain h)
      obtain rfl := modify_iff.mp h
      exact fc_prim.book W _ lv_marks hp
    · split
      · exact Kw.pure
      · exact kd_propagateLits h

theorem kd_solverPropagate {ls : List Int} (h : cc.level ≠ 0) : Kw FC (solverPropagate cc ls) := by
  unfold solverPropagate
  refine Kw.bind ⟨fun W u W' h hp => ?_⟩ (fun _ => kd_propagateLits h)
  unfold pushLevel at h
  simp only [smok] at h
  obtain ⟨l, W1, ⟨-, rfl⟩, ⟨-, rfl⟩ | ⟨-, rfl⟩⟩ := h
  · exact fc_prim.levels _ _ hp
  · exact hp

/-! ### All calls -/

theorem dropLit_fc {i : Nat} {e : LitmapEntry} {u : Unit} (hf : FC W) (he : W.litmap[i]? = some e) (hp : e.prev ≠ 0)
    (h : dropLit (i + 1 : Nat) e W = .ok (u, W')) : FC W' := by
  have t := hf.ti.ti_dropLit he hp h
  unfold dropLit at h
  simp only [smok] at h
  obtain ⟨vs, W1, ⟨g1, rfl⟩, vs', W2, ⟨g2, rfl⟩, _, W3, rfl, _, W4, ⟨ps, vs2, g3, rfl, rfl⟩, rfl⟩ := h
  have hd := unsetLiteral_eff (hf.ti.wf _ _ g1) g2
  have hm := hf.ti.mem _ _ he hp vs g1
  have hpos := (hf.ti.link _ _ he hp).1
  refine ⟨t, fun q hq => ?_, hf.dist⟩
  obtain ⟨h1, ho⟩ := hf.ord q hq
  refine ⟨h1, ord_keep (W := W2) rfl g1 (fun ev hm' => ?_) ho⟩
  rw [hd.mem]
  refine ⟨fun hk => ?_, hm'⟩
  rw [hk] at hm'
  rw [with_unique (hf.ti.wf _ _ g1) hm' hm] at h1
  unfold litAt at h1
  split_ifs at h1 <;> omega

theorem updateStep_fc {m : Nat} : ∀ {n o : Nat} {W W' : World} {u : Unit}, FC W → updateStep m n o W = .ok (u, W') → FC W'
  | 0, o, W, W', u, hi, h => by obtain ⟨-, rfl⟩ := pure_iff.mp h; exact hi
  | n + 1, o, W, W', u, hi, h => by
    unfold updateStep at h
    simp only [smok] at h
    obtain ⟨e, W1, ⟨rfl, rfl⟩, _, W2, h2, h3⟩ := h
    rcases h2 with ⟨hc, h2⟩ | ⟨-, rfl⟩
    · have hp : (entryAt W1.litmap ((o + 1 : Nat) : Int)).prev ≠ 0 := by
        simp only [LitmapEntry.invalid, Bool.and_eq_true] at hc
        simpa using hc.1
      exact updateStep_fc (dropLit_fc hi (entry_get hp) hp h2) h3
    · exact updateStep_fc hi h3

theorem FC.useFact {t : Bool} {var : Nat} {x : Int} {vs : VarState} (hf : FC W) (hv : W.vars[var]? = some vs) (hno : ∀ l, (x, l) ∉ vs.with)
    (h : Clingcon.useFact t var x W = .ok (r, W')) : FC W' := by
  have ti := hf.ti.ti_useFact hv hno h
  unfold Clingcon.useFact at h
  simp only [smok] at h
  obtain ⟨ps, W3, ⟨vs1, g1, rfl, rfl⟩, _, W4, rfl, vs2, W5, ⟨g2, rfl⟩, vs', W6, ⟨g3, rfl⟩, _, W7, rfl, -, rfl⟩ := h
  dsimp only at g2
  rw [hv] at g2
  obtain rfl := Option.some.inj g2
  have h1 : (if t then TRUE_LIT else -TRUE_LIT : Int).natAbs = 1 := by cases t <;> rfl
  have hs := setLiteral_eff (hf.ti.wf _ _ hv) (by intro h0; rw [h0] at h1; cases h1) g3
  have sep : ∀ v k l, OrdLit W v k l → ¬ (v = var ∧ k = x) := by
    rintro v k l ⟨us, hu, hm⟩ ⟨rfl, rfl⟩
    rw [hv] at hu
    injection hu with hu
    subst hu
    exact hno l hm
  refine ⟨ti, fun q hq => ?_, ?_⟩
  · rcases List.mem_append.mp hq with hq | hq
    · obtain ⟨a, ho⟩ := hf.ord q hq
      refine ⟨a, ord_keep (W := W) rfl hv (fun e hm => ?_) ho⟩
      rw [hs.mem, if_neg (fun hk => sep _ _ _ ho ⟨e, hk⟩)]
      exact hm
    · obtain rfl := List.mem_singleton.mp hq
      dsimp only
      refine ⟨h1, ord_at (W := W) rfl hv ?_⟩
      rw [hs.mem, if_pos rfl]
  · refine List.pairwise_append.mpr ⟨hf.dist, List.pairwise_singleton _ _, fun p hp q hq => ?_⟩
    obtain rfl := List.mem_singleton.mp hq
    exact fun e => sep _ _ _ (hf.ord p hp).2 ⟨e.1.symm, e.2.symm⟩

theorem freeLit_same {l : Int} {v : Nat} {x : Int} {o : Option Int} (h : freeLit cc l v x W = .ok (o, W')) :
    W'.factmap = W.factmap ∧ W'.vars = W.vars := by
  unfold freeLit at h
  simp only [smok] at h
  obtain ⟨e, W4, ⟨rfl, rfl⟩, h3⟩ := h
  rcases h3 with ⟨hinv, rfl, rfl⟩ | ⟨-, l, W3, ⟨rfl, rfl⟩, _, W4, rfl, h3⟩
  · exact ⟨rfl, rfl⟩
  obtain ⟨b, W4, ⟨rfl, rfl⟩, h3⟩ := h3
  rcases h3 with ⟨-, rfl, rfl⟩ | ⟨-, b, W5, ⟨rfl, rfl⟩, h3⟩
  · exact ⟨rfl, rfl⟩
  rcases h3 with ⟨-, rfl, rfl⟩ | ⟨-, rfl, rfl⟩ <;> exact ⟨rfl, rfl⟩

theorem FC.useLit {l : Int} {var : Nat} {x : Int} {vs : VarState} (hf : FC W) (ti : TI W') (hv : W.vars[var]? = some vs) (hno : ∀ l, (x, l) ∉ vs.with)
    (h : Clingcon.useLit cc l var x W = .ok (r, W')) : FC W' := by
  unfold Clingcon.useLit at h
  rw [bind_iff] at h
  obtain ⟨o, W3, h3, h⟩ := h
  obtain ⟨e1, e2⟩ := freeLit_same h3
  cases o with
  | none =>
    obtain ⟨-, rfl⟩ := pure_iff.mp h
    unfold FC
    rw [e1]
    exact FS.of hf ti (fun v k l _ ho => (ord_vars e2).mpr ho)
  | some m =>
    simp only [smok] at h
    obtain ⟨_, W2, rfl, _, W3, rfl, _, W4, ⟨hm0, vs1, g1, -, rfl⟩, vs2, W5, ⟨g2, rfl⟩, vs', W6, ⟨g3, rfl⟩, _, W7, rfl, -, rfl⟩ := h
    dsimp only at g2
    have hv' := hv
    rw [← e2, g2] at hv'
    obtain rfl := Option.some.inj hv'
    have hs := setLiteral_eff (hf.ti.wf _ _ hv) hm0 g3
    refine (FS.of (W := W) (gs := W3.factmap) (by rw [e1]; exact hf) ti (fun v k l _ ho => ?_) :)
    refine ord_keep (W := W) (vs := vs2) (vs' := vs') (by dsimp only; rw [e2]) hv (fun e hm => ?_) ho
    rw [hs.mem]
    rw [if_neg]
    · exact hm
    · rintro rfl
      exact hno l hm

theorem FC.exec {op : Op} (hf : FC W) (hp : op.pre W) (h : op.exec W = .ok (r, W')) (hr : r = false → topLevel op = false) : FC W' := by
  have ti := hf.ti.exec hp h
  have hP := fc_prim
  have h0 : Prim0 FC := fc_prim.toPrim0
  have up : ∀ {cc : CC}, (r = false → (cc.level == 0) = false) → r = true ∨ cc.level ≠ 0 := by
    intro cc hh
    cases r with
    | true => exact Or.inl rfl
    | false => exact Or.inr (by simpa using hh rfl)
  cases op with
  | addVar lo hi =>
    obtain ⟨_, W1, g1, g2⟩ := SM.bind_ok h
    obtain ⟨-, rfl⟩ := pure_iff.mp g2
    obtain ⟨v, g3⟩ := discard_iff.mp g1
    unfold addVar at g3
    injection g3 with g3
    obtain ⟨rfl, rfl⟩ := Prod.mk.inj g3
    refine FS.of hf ti (fun v k l _ hh => ?_)
    obtain ⟨vs, a, b⟩ := hh
    exact ⟨vs, by dsimp only; rw [List.getElem?_append_left (List.getElem?_eq_some_iff.mp a).1]; exact a, b⟩
  | simple cc l co v r s =>
    replace h : addSimple cc l co v r s W = .ok (_, W') := h
    unfold addSimple at h
    rw [bind_iff] at h
    obtain ⟨f, W0, h0', h⟩ := h
    obtain ⟨rfl, rfl⟩ := qFalse_iff.mp h0'
    split at h
    · obtain ⟨-, rfl⟩ := pure_iff.mp h; exact hf
    rw [bind_iff] at h
    obtain ⟨truth, W1, h1, h⟩ := h
    obtain ⟨ht1, rfl⟩ := qValue_iff.mp h1
    generalize (if co > 0 then floordiv r co else -floordiv r (-co) - 1) = x at h
    rw [bind_iff] at h
    obtain ⟨direct, W2, h2, h⟩ := h
    cases direct with
    | true =>
      obtain ⟨rfl, vs, hv, hno⟩ := canReuse_none hf.ti.wf h2
      rw [if_pos rfl] at h
      cases truth with
      | some t => exact hf.useFact hv hno h
      | none => exact hf.useLit ti hv hno h
    | false =>
      have hi2 := (kw_canReuse h0).kw _ _ _ h2 hf
      rw [if_neg (by decide)] at h
      refine Kw.kw (P := FC) ?_ _ _ _ h hi2
      kw_auto
  | propagate cc ls =>
    rcases up hr with rfl | hc
    · exact kt_solverPropagate.kt _ _ h hf
    · exact (kd_solverPropagate hc).kw _ _ _ h hf
  | check cc b n =>
    rcases up hr with rfl | hc
    · exact kt_solverCheck.kt _ _ h hf
    · exact (kwi_solverCheck h0 (kwi_integrateFacts hc)).kw _ _ _ h hf
  | simplify cc t b n =>
    rcases up hr with rfl | hc
    · exact kt_factLoop.kt _ _ h hf
    · exact absurd hp hc
  | updateBounds cc os b n =>
    rcases up hr with rfl | hc
    · refine Kt.kt (P := FC) ?_ _ _ h hf
      show Kt FC (updateBounds cc os b n)
      unfold updateBounds
      exact Kt.andThen (Kt.of (by kw_auto)) kt_solverCheck
    · exact (kwi_updateBounds h0 (kwi_integrateFacts hc)).kw _ _ _ h hf
  | update n =>
    obtain ⟨_, W1, g1, g2⟩ := SM.bind_ok h
    obtain ⟨-, rfl⟩ := pure_iff.mp g2
    unfold solverUpdate at g1
    simp only [smok] at g1
    obtain ⟨_, W2, rfl, X, W3, ⟨rfl, rfl⟩, g1⟩ := g1
    refine updateStep_fc ?_ g1
    exact FS.of hf (hf.ti.other rfl rfl rfl) (fun _ _ _ _ h => h)
  | fresh => rw [(fresh_iff.mp h).2] at ti ⊢; exact FS.of hf ti (fun _ _ _ _ h => h)
  | post e => rw [(post_iff.mp h).2] at ti ⊢; exact FS.of hf ti (fun _ _ _ _ h => h)
  | undo =>
    refine Kw.kw (P := FC) ?_ _ _ _ h hf
    unfold Op.exec
    exact Kw.bind (kw_solverUndo hP) (fun _ => Kw.pure)
  | _ =>
    refine Kw.kw (P := FC) ?_ _ _ _ h hf
    unfold Op.exec
    kw_auto

theorem FC.init {n : Int} (h : 1 < n) : FC (World.init n) := ⟨TI.init h, fun q hq => (List.not_mem_nil hq).elim, List.Pairwise.nil⟩

theorem Spec.Proceed.fc {ops : List Op} (h : Proceed ops W W') : FC W → FC W' := by
  induction h with
  | nil => exact id
  | cons hp hx hr _ ih => exact fun hi => ih (hi.exec hp hx hr)

theorem Spec.Proceed.run {ops : List Op} (h : Proceed ops W W') : Run ops W W' := by
  induction h with
  | nil => exact .nil _
  | cons hp hx hr _ ih => exact .cons hp hx ih

end Clingcon
