import Verif.Proof.Nested
import Verif.Proof.GivenFacts

/-! The functions on tables of order literals, bounds and facts return: no assertion fails and there is no access out of range. -/
set_option linter.unusedSimpArgs false
set_option linter.unusedVariables false
namespace Clingcon
open Spec VarState

variable {α γ : Type} {W W0 W' : World} {cc : CC} {r : Bool}

/-- The function returns. -/
def Ok (x : SM α) (W : World) : Prop := ∃ a W', x W = .ok (a, W')

theorem Ok.bind {x : SM α} {f : α → SM γ} (hx : Ok x W) (hf : ∀ a W', x W = .ok (a, W') → Ok (f a) W') : Ok (x >>= f) W := by
  obtain ⟨a, W1, h1⟩ := hx
  obtain ⟨b, W2, h2⟩ := hf a W1 h1
  exact ⟨b, W2, bind_iff.mpr ⟨a, W1, h1, h2⟩⟩

theorem Ok.step {x : SM α} {f : α → SM γ} {a : α} {W1 : World} (hx : x W = .ok (a, W1)) (hf : Ok (f a) W1) : Ok (x >>= f) W := by
  obtain ⟨b, W2, h2⟩ := hf
  exact ⟨b, W2, bind_iff.mpr ⟨a, W1, hx, h2⟩⟩

theorem Ok.stepU {x : SM Unit} {f : Unit → SM γ} {W1 : World} (hx : x W = .ok ((), W1)) (hf : Ok (f ()) W1) : Ok (x >>= f) W := Ok.step hx hf

theorem Ok.pure {a : α} : Ok (Pure.pure a : SM α) W := ⟨a, W, rfl⟩
theorem Ok.assertS {b : Bool} (h : b = true) : Ok (assertS b) W := ⟨(), W, assertS_iff.mpr ⟨h, rfl⟩⟩
theorem Ok.whenS {b : Bool} {x : SM Unit} (h : b = true → Ok x W) : Ok (whenS b x) W := by
  cases b with
  | true =>
    obtain ⟨a, W1, h⟩ := h rfl
    exact ⟨a, W1, whenS_iff.mpr (Or.inl ⟨rfl, h⟩)⟩
  | false => exact ⟨(), W, whenS_iff.mpr (Or.inr ⟨rfl, rfl⟩)⟩
theorem Ok.getVar {v : Nat} {vs : VarState} (h : W.vars[v]? = some vs) : Ok (getVar v) W := ⟨vs, W, getVar_iff.mpr ⟨h, rfl⟩⟩
theorem Ok.discard {x : SM α} (h : Ok x W) : Ok (Functor.discard x : SM Unit) W := by
  obtain ⟨a, W1, h⟩ := h
  exact ⟨(), W1, discard_iff.mpr ⟨a, h⟩⟩
theorem Ok.modify {f : World → World} : Ok (modify f : SM Unit) W := ⟨(), f W, rfl⟩
theorem Ok.addClause {c : List Int} : Ok (addClause cc c) W := ⟨_, _, rfl⟩

theorem Ok.updateLitmap {v : Nat} {vs : VarState} {l k : Int} (h : W.vars[v]? = some vs) : Ok (updateLitmap v l k) W :=
  ⟨_, _, updateLitmap_iff.mpr ⟨vs, h, rfl, rfl⟩⟩

theorem Ok.getLiteral {v : Nat} {vs : VarState} {x : Int} (hw : vs.WF) (hp : 1 < W.nextLit) (hv : W.vars[v]? = some vs) : Ok (getLiteral cc v x) W := by
  unfold Clingcon.getLiteral
  refine Ok.step (getVar_iff.mpr ⟨hv, rfl⟩) ?_
  split
  · exact Ok.pure
  split
  · exact Ok.pure
  rename_i g1 g2
  have hne : (if x ≥ cc.conf.signValue then -W.nextLit else W.nextLit) ≠ 0 := by split_ifs <;> omega
  obtain ⟨o, vs1, e1, e2, hc⟩ := refer_ok hw (k := x) hne ⟨by omega, by omega⟩
  have hlen : v < W.vars.length := (List.getElem?_eq_some_iff.mp hv).1
  refine Ok.step (liftRes_iff.mpr ⟨e1, rfl⟩) (Ok.stepU (setVar_iff.mpr rfl) ?_)
  dsimp only
  rcases hc with ⟨ho, -⟩ | ⟨rfl, -, vs2, e3, -, -⟩
  · rw [if_neg ho]
    exact Ok.pure
  · rw [if_pos rfl]
    refine Ok.step (newLit_iff.mpr ⟨rfl, rfl⟩) (Ok.step (liftRes_iff.mpr ⟨e3, rfl⟩) (Ok.stepU (setVar_iff.mpr rfl) ?_))
    refine Ok.stepU (litmapAdd_iff.mpr ⟨hne, _, List.getElem?_set_self (by simpa using hlen), litPrev_ne, rfl⟩) ?_
    exact Ok.stepU (addWatch_iff.mpr rfl) (Ok.stepU (addWatch_iff.mpr rfl) Ok.pure)

theorem Ok.updateLiteral {v : Nat} {vs : VarState} {x : Int} {t : Option Bool} (hw : vs.WF) (hp : 1 < W.nextLit) (hv : W.vars[v]? = some vs) :
    Ok (updateLiteral cc v x t) W := by
  unfold Clingcon.updateLiteral
  refine Ok.step (qLevel_iff.mpr ⟨rfl, rfl⟩) ?_
  split
  · rename_i _ _ t ht
    refine Ok.step (getVar_iff.mpr ⟨hv, rfl⟩) ?_
    split
    · exact Ok.pure
    split
    · exact Ok.pure
    rename_i g1 g2
    have hne : (if t then TRUE_LIT else -TRUE_LIT) ≠ 0 := by cases t <;> decide
    obtain ⟨o, vs1, e1, e2, hc⟩ := refer_ok hw (k := x) hne ⟨by omega, by omega⟩
    have hlen : v < W.vars.length := (List.getElem?_eq_some_iff.mp hv).1
    refine Ok.step (liftRes_iff.mpr ⟨e1, rfl⟩) (Ok.stepU (setVar_iff.mpr rfl) ?_)
    dsimp only
    rcases hc with ⟨ho, -⟩ | ⟨rfl, -, vs2, e3, -, -⟩
    · rw [if_neg ho]
      exact Ok.pure
    · rw [if_pos rfl]
      refine Ok.step (liftRes_iff.mpr ⟨e3, rfl⟩) (Ok.stepU (setVar_iff.mpr rfl) ?_)
      exact Ok.step (updateLitmap_iff.mpr ⟨_, List.getElem?_set_self (by simpa using hlen), rfl, rfl⟩) (Ok.stepU (modify_iff.mpr rfl) Ok.pure)
  · exact Ok.getLiteral hw hp hv

/-- `set_literal` for a value that has an order literal. -/
theorem setLiteral_has {vs : VarState} (h : vs.WF) {k x l : Int} (hl : (k, l) ∈ vs.with) : ∃ vs', vs.setLiteral k x = .ok vs' := by
  have hw := h
  unfold WF at hw
  unfold VarState.setLiteral
  cases e : vs.table with
  | map m =>
    rw [e] at hw
    dsimp only at hw ⊢
    rw [mem_with_map e] at hl
    by_cases hlt : vs.minBound < vs.maxBound
    · rcases mogrify_with h e hlt with h1 | ⟨off, v, h1, h2, h3, h4, h5⟩
      · rw [h1]
        exact ⟨_, rfl⟩
      · rw [h1]
        have := (h5 k l).mpr (by rw [mem_with_map e]; exact hl)
        rw [mem_with_vec rfl] at this
        have hr : k < off + v.length := by
          have := (List.getElem?_eq_some_iff.mp this.2.2).1
          omega
        obtain ⟨v', g, -⟩ := vecSet_ok x this.2.1 hr
        refine ⟨{ vs with table := .vec off v' }, ?_⟩
        show (do let w ← vecSet off v k x; Pure.pure ({ vs with table := .vec off w } : VarState)) = _
        rw [g]
        rfl
    · have h1 : vs.mogrify m = .ok none := by
        have hne : m ≠ [] := fun hh => by rw [hh] at hl; cases hl
        obtain ⟨f, t, rfl⟩ := List.exists_cons_of_ne_nil hne
        obtain ⟨b, hb⟩ : ∃ b, (f :: t).getLast? = some b := ⟨_, List.getLast?_eq_some_getLast (by simp)⟩
        have : f.1 ≤ b.1 := by
          have hb' := List.mem_of_getLast? hb
          rcases List.mem_cons.mp hb' with rfl | hb'
          · exact le_refl _
          · exact le_of_lt ((List.pairwise_cons.mp hw.1).1 _ hb')
        unfold mogrify
        rw [hb]
        simp only [List.head?_cons]
        split_ifs
        · omega
        · rfl
        · rfl
      rw [h1]
      exact ⟨_, rfl⟩
  | vec off v =>
    rw [mem_with_vec e] at hl
    have hr : k < off + v.length := by
      have := (List.getElem?_eq_some_iff.mp hl.2.2).1
      omega
    obtain ⟨v', g, -⟩ := vecSet_ok x hl.2.1 hr
    refine ⟨{ vs with table := .vec off v' }, ?_⟩
    show (do let w ← vecSet off v k x; Pure.pure ({ vs with table := .vec off w } : VarState)) = _
    rw [g]
    rfl

theorem Ok.makeFact {olit fact : Int} (ti : TI W) (hf : fact.natAbs = 1) : Ok (makeFact olit fact) W := by
  unfold Clingcon.makeFact
  refine Ok.step (litmapAt_iff.mpr ⟨rfl, rfl⟩) (Ok.whenS (fun hv => ?_))
  obtain ⟨v0, v1, v2, v3⟩ := entry_valid hv
  obtain ⟨-, vs, hvs, -, -⟩ := ti.link _ _ v1 v2
  have hm := ti.mem _ _ v1 v2 vs hvs
  rw [v3, litAt_offset v0] at hm
  have hw := ti.wf _ _ hvs
  obtain ⟨o, e1, e2⟩ := getLiteral_ok hw (Or.inr ⟨_, hm⟩)
  obtain ⟨vs', e3⟩ := setLiteral_has hw (x := fact) hm
  refine Ok.step (getVar_iff.mpr ⟨hvs, rfl⟩) (Ok.step (liftRes_iff.mpr ⟨e1, rfl⟩) (Ok.stepU (assertS_iff.mpr ⟨?_, rfl⟩) ?_))
  · rw [(e2 olit).mpr hm]
    exact beq_self_eq_true _
  refine Ok.step (liftRes_iff.mpr ⟨e3, rfl⟩) (Ok.stepU (setVar_iff.mpr rfl) ?_)
  have hlen : (entryAt W.litmap olit).var < W.vars.length := (List.getElem?_eq_some_iff.mp hvs).1
  refine Ok.stepU (discard_iff.mpr ⟨_, updateLitmap_iff.mpr ⟨_, List.getElem?_set_self (by simpa using hlen), rfl, rfl⟩⟩) ?_
  exact Ok.step (litmapAt_iff.mpr ⟨rfl, rfl⟩) (Ok.stepU (modify_iff.mpr rfl) ⟨(), _, unsetEntry_iff.mpr rfl⟩)

theorem Ok.dropFact {f x : Int} {v : Nat} (ti : TI W) (hf : f.natAbs = 1) (ho : OrdLit W v x f) : Ok (dropFact f v x) W := by
  obtain ⟨vs, hv, hm⟩ := ho
  have hw := ti.wf _ _ hv
  obtain ⟨o, e1, e2⟩ := getLiteral_ok hw (Or.inr ⟨_, hm⟩)
  obtain ⟨vs', e3, -⟩ := unsetLiteral_ok hw (Or.inr ⟨_, hm⟩)
  unfold Clingcon.dropFact
  refine Ok.step (getVar_iff.mpr ⟨hv, rfl⟩) (Ok.step (liftRes_iff.mpr ⟨e1, rfl⟩) (Ok.stepU (assertS_iff.mpr ⟨?_, rfl⟩) ?_))
  · rw [(e2 f).mpr hm]
    split
    · rename_i h; rw [h]; rfl
    · have : f = -TRUE_LIT := by unfold TRUE_LIT at *; omega
      rw [this]; rfl
  refine Ok.stepU (discard_iff.mpr ⟨_, updateLitmap_iff.mpr ⟨_, hv, rfl, rfl⟩⟩) (Ok.step (liftRes_iff.mpr ⟨e3, rfl⟩) ?_)
  exact ⟨(), _, setVar_iff.mpr rfl⟩

theorem Ok.propagateVariables {s : Int} : ∀ {ls : List Int} {m : Int} {W : World}, Ok (propagateVariables cc s m ls) W
  | [], m, W => Ok.pure
  | l :: ls, m, W => by
    unfold Clingcon.propagateVariables
    refine Ok.step (qTrue_iff.mpr ⟨rfl, rfl⟩) ?_
    split
    · exact Ok.pure
    refine Ok.step (addClause_iff.mpr ⟨rfl, rfl⟩) ?_
    split
    · exact Ok.pure
    refine Ok.step (qLevel_iff.mpr ⟨rfl, rfl⟩) ?_
    split <;> exact Ok.propagateVariables

theorem Ok.updateUpper {lvl v : Nat} {vs : VarState} {x : Int} (hv : W.vars[v]? = some vs) (hx : x ≤ vs.upper) : Ok (updateUpper lvl v x) W := by
  unfold Clingcon.updateUpper
  refine Ok.step (getVar_iff.mpr ⟨hv, rfl⟩) ?_
  refine Ok.bind (Ok.whenS (fun _ => Ok.modify)) (fun _ W1 _ => Ok.stepU (assertS_iff.mpr ⟨?_, rfl⟩) (Ok.stepU (setVar_iff.mpr rfl) Ok.modify))
  refine decide_eq_true ?_
  split <;> exact hx

theorem Ok.updateLower {lvl v : Nat} {vs : VarState} {x : Int} (hv : W.vars[v]? = some vs) (hx : vs.lower ≤ x + 1) : Ok (updateLower lvl v x) W := by
  unfold Clingcon.updateLower
  refine Ok.step (getVar_iff.mpr ⟨hv, rfl⟩) ?_
  refine Ok.bind (Ok.whenS (fun _ => Ok.modify)) (fun _ W1 _ => Ok.stepU (assertS_iff.mpr ⟨?_, rfl⟩) (Ok.stepU (setVar_iff.mpr rfl) Ok.modify))
  refine decide_eq_true ?_
  split <;> exact hx

theorem Ok.updateUpperLit {lvl v : Nat} {l x s : Int} (ti : TI W) (hn : AllNested W) (hv : v < W.vars.length) : Ok (updateUpperLit cc lvl v l x s) W := by
  obtain ⟨vs, hv⟩ : ∃ vs, W.vars[v]? = some vs := ⟨_, List.getElem?_eq_getElem hv⟩
  have hle := (hn.get hv).le
  unfold Clingcon.updateUpperLit
  refine Ok.step (getVar_iff.mpr ⟨hv, rfl⟩) ?_
  split
  · refine Ok.bind (Ok.getLiteral (ti.wf _ _ hv) ti.pos hv) (fun m W1 _ => Ok.step (addClause_iff.mpr ⟨rfl, rfl⟩) ?_)
    exact Ok.bind (Ok.whenS fun _ => Ok.discard ⟨_, _, rfl⟩) (fun _ _ _ => Ok.pure)
  · rename_i hlt
    refine Ok.bind (Ok.whenS (fun h => Ok.updateUpper hv (by simp at h; omega))) (fun _ W1 h1 => ?_)
    obtain ⟨vs', hv', hle'⟩ : ∃ vs', W1.vars[v]? = some vs' ∧ vs'.lower ≤ vs'.upper := by
      rcases whenS_iff.mp h1 with ⟨hc, h1⟩ | ⟨-, rfl⟩
      · have n1 := hn.updUpper (fun us hu => by
          rw [hv] at hu; injection hu with hu; subst hu
          simp at hc; omega) h1
        obtain ⟨y, hy, e⟩ := updateUpper_frame h1
        have : v < W1.vars.length := by
          have e := congrArg (fun p => p.1.length) e
          simp [frame] at e
          rw [e]
          exact (List.getElem?_eq_some_iff.mp hv).1
        exact ⟨_, List.getElem?_eq_getElem this, (n1.get (List.getElem?_eq_getElem this)).le⟩
      · exact ⟨vs, hv, hle⟩
    refine Ok.step (getVar_iff.mpr ⟨hv', rfl⟩) (Ok.stepU (assertS_iff.mpr ⟨decide_eq_true hle', rfl⟩) (Ok.step (qTrue_iff.mpr ⟨rfl, rfl⟩) ?_))
    split
    · exact Ok.pure
    · exact Ok.propagateVariables

theorem Ok.updateLowerLit {lvl v : Nat} {l x s : Int} (ti : TI W) (hn : AllNested W) (hv : v < W.vars.length) : Ok (updateLowerLit cc lvl v l x s) W := by
  obtain ⟨vs, hv⟩ : ∃ vs, W.vars[v]? = some vs := ⟨_, List.getElem?_eq_getElem hv⟩
  have hle := (hn.get hv).le
  unfold Clingcon.updateLowerLit
  refine Ok.step (getVar_iff.mpr ⟨hv, rfl⟩) ?_
  split
  · refine Ok.bind (Ok.getLiteral (ti.wf _ _ hv) ti.pos hv) (fun m W1 _ => Ok.step (addClause_iff.mpr ⟨rfl, rfl⟩) ?_)
    exact Ok.bind (Ok.whenS fun _ => Ok.discard ⟨_, _, rfl⟩) (fun _ _ _ => Ok.pure)
  · rename_i hlt
    refine Ok.bind (Ok.whenS (fun h => Ok.updateLower hv (by simp at h; omega))) (fun _ W1 h1 => ?_)
    obtain ⟨vs', hv', hle'⟩ : ∃ vs', W1.vars[v]? = some vs' ∧ vs'.lower ≤ vs'.upper := by
      rcases whenS_iff.mp h1 with ⟨hc, h1⟩ | ⟨-, rfl⟩
      · have n1 := hn.updLower (fun us hu => by
          rw [hv] at hu; injection hu with hu; subst hu
          simp at hc; omega) h1
        obtain ⟨y, hy, e⟩ := updateLower_frame h1
        have : v < W1.vars.length := by
          have e := congrArg (fun p => p.1.length) e
          simp [frame] at e
          rw [e]
          exact (List.getElem?_eq_some_iff.mp hv).1
        exact ⟨_, List.getElem?_eq_getElem this, (n1.get (List.getElem?_eq_getElem this)).le⟩
      · exact ⟨vs, hv, hle⟩
    refine Ok.step (getVar_iff.mpr ⟨hv', rfl⟩) (Ok.stepU (assertS_iff.mpr ⟨decide_eq_true hle', rfl⟩) (Ok.step (qTrue_iff.mpr ⟨rfl, rfl⟩) ?_))
    split
    · exact Ok.pure
    · exact Ok.propagateVariables

/-! ### Recorded facts are in the tables -/

/-- The given facts are order literals for different values. -/
structure FS (gs : List (Int × Nat × Int × Int)) (W : World) : Prop where
  ti : TI W
  ord : ∀ q ∈ gs, q.1.natAbs = 1 ∧ OrdLit W q.2.1 q.2.2.1 q.1
  dist : gs.Pairwise (fun p q => ¬ (q.2.1 = p.2.1 ∧ q.2.2.1 = p.2.2.1))

/-- Recorded facts are order literals for different values. -/
def FC (W : World) : Prop := FS W.factmap W

variable {gs : List (Int × Nat × Int × Int)}

theorem FS.of (h : FS gs W) (ti : TI W') (ho : ∀ v k l, l.natAbs = 1 → OrdLit W v k l → OrdLit W' v k l) : FS gs W' :=
  ⟨ti, fun q hq => ⟨(h.ord q hq).1, ho _ _ _ (h.ord q hq).1 (h.ord q hq).2⟩, h.dist⟩

theorem FS.got {var : Nat} {x l : Int} (h : FS gs W) (g : GotLit W var x l W') : FS gs W' := h.of (g.ti h.ti) (fun v k m _ => g.ord.1 v k m)

theorem FS.updateUpperLit {lvl v : Nat} {l x s : Int} (hf : FS gs W) (h : Clingcon.updateUpperLit cc lvl v l x s W = .ok (r, W')) :
    FS gs W' ∧ W'.factmap = W.factmap := by
  unfold Clingcon.updateUpperLit at h
  rw [bind_iff] at h
  obtain ⟨vs, W1, h1, h⟩ := h
  obtain ⟨hv, rfl⟩ := getVar_iff.mp h1
  split_ifs at h with hc
  · rw [bind_iff] at h
    obtain ⟨m, W2, h2, h⟩ := h
    have g := getLiteral_eff hf.ti.wf (by have := hf.ti.pos; omega) h2
    have f2 := hf.got g
    simp only [smok] at h
    obtain ⟨b, W3, ⟨-, rfl⟩, _, W4, h4, -, rfl⟩ := h
    rcases h4 with ⟨-, c, -, rfl⟩ | ⟨-, rfl⟩ <;> exact ⟨f2.of (f2.ti.other rfl rfl rfl) (fun _ _ _ _ h => h), g.factmap⟩
  · rw [bind_iff] at h
    obtain ⟨_, W2, h2, h⟩ := h
    have f2 : FS gs W2 ∧ W2.factmap = W1.factmap := by
      rcases whenS_iff.mp h2 with ⟨-, h2⟩ | ⟨-, rfl⟩
      · obtain ⟨-, -, e3, e4⟩ := updateUpper_ord h2
        exact ⟨hf.of (hf.ti.ti_updateUpper h2) (fun v k l _ hl => (e4 v k l).mpr hl), e3⟩
      · exact ⟨hf, rfl⟩
    simp only [smok] at h
    obtain ⟨vs, W3, ⟨-, rfl⟩, _, W4, ⟨-, rfl⟩, b, W5, ⟨rfl, rfl⟩, h⟩ := h
    rcases h with ⟨-, -, rfl⟩ | ⟨-, h⟩
    · exact f2
    · obtain ⟨log, rfl⟩ := propagateVariables_log h
      exact ⟨f2.1.of (f2.1.ti.other rfl rfl rfl) (fun _ _ _ _ h => h), f2.2⟩

theorem FS.updateLowerLit {lvl v : Nat} {l x s : Int} (hf : FS gs W) (h : Clingcon.updateLowerLit cc lvl v l x s W = .ok (r, W')) :
    FS gs W' ∧ W'.factmap = W.factmap := by
  unfold Clingcon.updateLowerLit at h
  rw [bind_iff] at h
  obtain ⟨vs, W1, h1, h⟩ := h
  obtain ⟨hv, rfl⟩ := getVar_iff.mp h1
  split_ifs at h with hc
  · rw [bind_iff] at h
    obtain ⟨m, W2, h2, h⟩ := h
    have g := getLiteral_eff hf.ti.wf (by have := hf.ti.pos; omega) h2
    have f2 := hf.got g
    simp only [smok] at h
    obtain ⟨b, W3, ⟨-, rfl⟩, _, W4, h4, -, rfl⟩ := h
    rcases h4 with ⟨-, c, -, rfl⟩ | ⟨-, rfl⟩ <;> exact ⟨f2.of (f2.ti.other rfl rfl rfl) (fun _ _ _ _ h => h), g.factmap⟩
  · rw [bind_iff] at h
    obtain ⟨_, W2, h2, h⟩ := h
    have f2 : FS gs W2 ∧ W2.factmap = W1.factmap := by
      rcases whenS_iff.mp h2 with ⟨-, h2⟩ | ⟨-, rfl⟩
      · obtain ⟨-, -, e3, e4⟩ := updateLower_ord h2
        exact ⟨hf.of (hf.ti.ti_updateLower h2) (fun v k l _ hl => (e4 v k l).mpr hl), e3⟩
      · exact ⟨hf, rfl⟩
    simp only [smok] at h
    obtain ⟨vs, W3, ⟨-, rfl⟩, _, W4, ⟨-, rfl⟩, b, W5, ⟨rfl, rfl⟩, h⟩ := h
    rcases h with ⟨-, -, rfl⟩ | ⟨-, h⟩
    · exact f2
    · obtain ⟨log, rfl⟩ := propagateVariables_log h
      exact ⟨f2.1.of (f2.1.ti.other rfl rfl rfl) (fun _ _ _ _ h => h), f2.2⟩

theorem ord_keep {v : Nat} {vs vs' : VarState} (he : W'.vars = W.vars.set v vs') (hv : W.vars[v]? = some vs) {u : Nat} {k l : Int}
    (hk : u = v → (k, l) ∈ vs.with → (k, l) ∈ vs'.with) (h : OrdLit W u k l) : OrdLit W' u k l := by
  rcases ord_set' he hv h with ⟨rfl, hq⟩ | hq
  · exact ord_at he hv (hk rfl hq)
  · exact hq

theorem dropFact_keep {f x : Int} {var : Nat} {u : Unit} (hi : TI W) (h : Clingcon.dropFact f var x W = .ok (u, W')) {v : Nat} {k m : Int}
    (hne : ¬ (v = var ∧ k = x)) (ho : OrdLit W v k m) : OrdLit W' v k m := by
  unfold Clingcon.dropFact at h
  simp only [smok] at h
  obtain ⟨vs, W1, ⟨h1, rfl⟩, old, W2, ⟨h2, rfl⟩, _, W3, ⟨h3, rfl⟩, _, W4, ⟨ps, vs4, h4, rfl, rfl⟩, vs', W5, ⟨h5, rfl⟩, rfl⟩ := h
  have hd := unsetLiteral_eff (hi.wf _ _ h1) h5
  exact ord_keep (W := W3) rfl h1 (fun e hm => (hd.mem _ _).mpr ⟨fun hk => hne ⟨e, hk⟩, hm⟩) ho

theorem FS.dropFact {f x p : Int} {var : Nat} {u : Unit} (hf : FS ((f, var, x, p) :: gs) W) (h : Clingcon.dropFact f var x W = .ok (u, W')) : FS gs W' := by
  have hd := List.pairwise_cons.mp hf.dist
  refine ⟨(ti_prim.drFact f var x).kw _ _ _ h hf.ti, fun q hq => ⟨(hf.ord q (List.mem_cons_of_mem _ hq)).1, ?_⟩, hd.2⟩
  exact dropFact_keep hf.ti h (hd.1 q hq) (hf.ord q (List.mem_cons_of_mem _ hq)).2

theorem Ok.propagateFacts {lvl : Nat} : ∀ {fs : List (Int × Nat × Int × Int)} {W : World}, FS fs W → AllNested W → Ok (propagateFacts cc lvl fs) W
  | [], W, hf, hn => Ok.pure
  | (f, v, x, p) :: fs, W, hf, hn => by
    obtain ⟨h1, ho⟩ := hf.ord _ (List.mem_cons_self ..)
    have hv := ord_lt ho
    unfold Clingcon.propagateFacts
    refine Ok.bind ?_ (fun b W1 hb => ?_)
    · split
      · exact Ok.updateUpperLit hf.ti hn hv
      · exact Ok.updateLowerLit hf.ti hn hv
    have k1 : FS ((f, v, x, p) :: fs) W1 ∧ AllNested W1 := by
      split_ifs at hb
      · exact ⟨(hf.updateUpperLit hb).1, (kw_updateUpperLit nested_prim.toPrimN).kw _ _ _ hb hn⟩
      · exact ⟨(hf.updateLowerLit hb).1, (kw_updateLowerLit nested_prim.toPrimN).kw _ _ _ hb hn⟩
    split
    · exact Ok.pure
    · refine Ok.bind (Ok.dropFact k1.1.ti h1 (k1.1.ord _ (List.mem_cons_self ..)).2) (fun _ W2 h2 => ?_)
      exact Ok.propagateFacts (k1.1.dropFact h2) ((nested_prim.drFact f v x).kw _ _ _ h2 k1.2)

theorem FC.makeFact {olit fact : Int} {u : Unit} (hi : FC W) (hf : fact.natAbs = 1) (h : Clingcon.makeFact olit fact W = .ok (u, W')) : FC W' := by
  have t := hi.ti.ti_makeFact hf h
  unfold Clingcon.makeFact at h
  simp only [smok] at h
  obtain ⟨e, W1, ⟨rfl, rfl⟩, h⟩ := h
  rcases h with ⟨hv, h⟩ | ⟨hv, rfl⟩
  · obtain ⟨vs, W2, ⟨g1, rfl⟩, old, W3, ⟨g2, rfl⟩, _, W4, ⟨g3, rfl⟩, vs', W5, ⟨g4, rfl⟩, _, W6, rfl, _, W7,
      ⟨ps, vs2, g5, rfl, rfl⟩, e2, W8, ⟨rfl, rfl⟩, _, W9, rfl, rfl⟩ := h
    obtain ⟨v0, v1, v2, v3⟩ := entry_valid hv
    have hs := setLiteral_eff (hi.ti.wf _ _ g1) (by rintro rfl; cases hf) g4
    have hm := hi.ti.mem _ _ v1 v2 vs g1
    have hpos := (hi.ti.link _ _ v1 v2).1
    rw [v3, litAt_offset v0] at hm
    have hbig : olit.natAbs ≠ 1 := by unfold mapOffset at hpos; omega
    obtain ⟨e', a1, a2, a3, a4, a5⟩ := linkP_some (vs := vs2) (lit := fact) (k := (entryAt W5.litmap olit).value) v1
    have he : entryAt (linkP vs2 fact (entryAt W5.litmap olit).value W5.litmap) olit = e' := by
      rw [entryAt, if_neg v0, List.getD_eq_getElem?_getD, a1]; rfl
    have sep : ∀ v k l, l.natAbs = 1 → OrdLit W5 v k l → ¬ (v = (entryAt W5.litmap olit).var ∧ k = (entryAt W5.litmap olit).value) := by
      rintro v k l h1 ⟨us, hu, hm'⟩ ⟨rfl, rfl⟩
      rw [g1] at hu
      injection hu with hu
      subst hu
      rw [with_unique (hi.ti.wf _ _ g1) hm' hm] at h1
      exact hbig h1
    refine ⟨t, fun q hq => ?_, ?_⟩
    · rcases List.mem_append.mp hq with hq | hq
      · obtain ⟨h1, ho⟩ := hi.ord q hq
        refine ⟨h1, ord_keep (W := W5) rfl g1 (fun e hm => ?_) ho⟩
        rw [hs.mem, if_neg (fun hk => sep _ _ _ h1 ho ⟨e, hk⟩)]
        exact hm
      · obtain rfl := List.mem_singleton.mp hq
        dsimp only
        rw [he, a2, a4]
        refine ⟨hf, ord_at (W := W5) rfl g1 ?_⟩
        rw [hs.mem, if_pos rfl]
    · refine List.pairwise_append.mpr ⟨hi.dist, List.pairwise_singleton _ _, fun p hp q hq => ?_⟩
      obtain rfl := List.mem_singleton.mp hq
      dsimp only
      rw [he, a2, a4]
      obtain ⟨h1, ho⟩ := hi.ord p hp
      exact fun e => sep _ _ _ h1 ho ⟨e.1.symm, e.2.symm⟩
  · exact hi

end Clingcon
