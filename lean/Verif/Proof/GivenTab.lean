import Verif.Proof.LinksRun
import Verif.Proof.Nested
import Verif.Spec.Given

/-! How calls change tables of order literals and bounds: no call gives a new meaning to a literal. -/
set_option linter.unusedSimpArgs false
set_option linter.unusedVariables false
namespace Clingcon
open Spec VarState

variable {α γ : Type} {W W0 W' : World} {cc : CC}

theorem ord_set {v : Nat} {vs' : VarState} {W' : World} (he : W'.vars = W.vars.set v vs') {u : Nat} {k l : Int} (h : OrdLit W' u k l) :
    (u = v ∧ (k, l) ∈ vs'.with) ∨ (u ≠ v ∧ OrdLit W u k l) := by
  obtain ⟨vs, h1, h2⟩ := h
  rw [he, List.getElem?_set] at h1
  split_ifs at h1 with h3 h4
  · injection h1 with h1
    subst h1
    exact Or.inl ⟨h3.symm, h2⟩
  · exact Or.inr ⟨fun e => h3 e.symm, vs, h1, h2⟩

theorem ord_set' {v : Nat} {vs vs' : VarState} {W' : World} (he : W'.vars = W.vars.set v vs') (hv : W.vars[v]? = some vs) {u : Nat} {k l : Int}
    (h : OrdLit W u k l) : (u = v ∧ (k, l) ∈ vs.with) ∨ OrdLit W' u k l := by
  obtain ⟨us, h1, h2⟩ := h
  by_cases hu : u = v
  · subst hu
    rw [hv] at h1; injection h1 with h1; subst h1
    exact Or.inl ⟨rfl, h2⟩
  · refine Or.inr ⟨us, ?_, h2⟩
    rw [he, List.getElem?_set_ne (fun e => hu e.symm)]
    exact h1

theorem ord_at {v : Nat} {vs' : VarState} {W' : World} (he : W'.vars = W.vars.set v vs') {vs : VarState} (hv : W.vars[v]? = some vs) {k l : Int} (h : (k, l) ∈ vs'.with) :
    OrdLit W' v k l := ⟨vs', by rw [he, List.getElem?_set_self (List.getElem?_eq_some_iff.mp hv).1], h⟩

theorem ord_vars (he : W'.vars = W.vars) {v : Nat} {k l : Int} : OrdLit W' v k l ↔ OrdLit W v k l := by unfold OrdLit; rw [he]

/-! ### Effects on tables -/

/-- The table after `get_literal`: all order literals are kept, and at most one with a fresh literal is new. -/
theorem GotLit.ord {var : Nat} {x l : Int} (h : GotLit W var x l W') : (∀ v k m, OrdLit W v k m → OrdLit W' v k m) ∧ W.nextLit ≤ W'.nextLit ∧
    ∀ v k m, OrdLit W' v k m → OrdLit W v k m ∨ (m.natAbs : Int) = W.nextLit.natAbs := by
  cases h with
  | low => exact ⟨fun _ _ _ h => h, Int.le_refl _, fun _ _ _ h => Or.inl h⟩
  | high => exact ⟨fun _ _ _ h => h, Int.le_refl _, fun _ _ _ h => Or.inl h⟩
  | old vs vs' l hv h1 h2 hm hs =>
    refine ⟨fun v k m h => ?_, Int.le_refl _, fun v k m h => Or.inl ?_⟩
    · rcases ord_set' (vs' := vs') (W' := { W with vars := W.vars.set var vs' }) rfl hv h with ⟨rfl, hq⟩ | hq
      · exact ord_at rfl hv ((hs.mem _ _).mpr hq)
      · exact hq
    · rcases ord_set (vs' := vs') (W := W) rfl h with ⟨rfl, hq⟩ | ⟨-, hq⟩
      · exact ⟨vs, hv, (hs.mem _ _).mp hq⟩
      · exact hq
  | new vs vs' l hv h1 h2 hm hs hl =>
    refine ⟨fun v k m h => ?_, by dsimp only; omega, fun v k m h => ?_⟩
    · rcases ord_set' (vs' := vs') (W' := { W with
        vars := W.vars.set var vs'
        nextLit := W.nextLit + 1
        litmap := (linkP vs' l x (growTo (mapOffset l + 1) W.litmap)).set (mapOffset l)
          ⟨var, LitmapEntry.getSign l, x, vs'.litPrev x, vs'.litSucc x⟩
        log := .watch (-l) :: .watch l :: .order l var x :: .lit W.nextLit :: W.log }) rfl hv h with ⟨rfl, hq⟩ | hq
      · refine ord_at rfl hv ((hs.mem _ _).mpr ?_)
        rw [if_neg]
        · exact hq
        · rintro rfl; exact hm _ hq
      · exact hq
    · rcases ord_set (vs' := vs') (W := W) rfl h with ⟨rfl, hq⟩ | ⟨-, hq⟩
      · have := (hs.mem _ _).mp hq
        split_ifs at this with hk
        · subst this
          right
          rcases hl with rfl | rfl <;> simp
        · exact Or.inl ⟨vs, hv, this⟩
      · exact Or.inl hq

/-- The table after `update_literal`: besides, a value may get a fact. -/
theorem updateLiteral_ord {var : Nat} {x l : Int} {t : Option Bool} (hi : TI W) (h : updateLiteral cc var x t W = .ok (l, W')) :
    (∀ v k m, OrdLit W v k m → OrdLit W' v k m) ∧ W.nextLit ≤ W'.nextLit ∧
    ∀ v k m, OrdLit W' v k m → OrdLit W v k m ∨ (m.natAbs : Int) = W.nextLit.natAbs ∨ m.natAbs = 1 := by
  have got : ∀ {W'}, GotLit W var x l W' → _ := fun {W'} g => (⟨g.ord.1, g.ord.2.1, fun v k m h => (g.ord.2.2 v k m h).imp id Or.inl⟩ :
    (∀ v k m, OrdLit W v k m → OrdLit W' v k m) ∧ W.nextLit ≤ W'.nextLit ∧
    ∀ v k m, OrdLit W' v k m → OrdLit W v k m ∨ (m.natAbs : Int) = W.nextLit.natAbs ∨ m.natAbs = 1)
  rcases updateLiteral_eff hi.wf (by have := hi.pos; omega) h with ⟨-, t, -, h⟩ | h
  · cases h with
    | got l W' g => exact got g
    | fact vs vs' hv h1 h2 hm hs =>
      refine ⟨fun v k m h => ?_, Int.le_refl _, fun v k m h => ?_⟩
      · rcases ord_set' (vs' := vs') (W' := { W with
        vars := W.vars.set var vs'
        litmap := linkP vs' (if t then TRUE_LIT else -TRUE_LIT) x W.litmap
        factmap := W.factmap ++ [(if t then TRUE_LIT else -TRUE_LIT, var, x,
          if t then vs'.litSucc x else vs'.litPrev x)] }) rfl hv h with ⟨rfl, hq⟩ | hq
        · refine ord_at rfl hv ((hs.mem _ _).mpr ?_)
          rw [if_neg]
          · exact hq
          · rintro rfl; exact hm _ hq
        · exact hq
      · rcases ord_set (vs' := vs') (W := W) rfl h with ⟨rfl, hq⟩ | ⟨-, hq⟩
        · have := (hs.mem _ _).mp hq
          split_ifs at this with hk ht
          · subst this; exact Or.inr (Or.inr rfl)
          · subst this; exact Or.inr (Or.inr rfl)
          · exact Or.inl ⟨vs, hv, this⟩
        · exact Or.inl hq
  · exact got h

/-- The table after `makeFact`: the literal is replaced by a fact. -/
theorem makeFact_ord {olit fact : Int} {u : Unit} (hi : TI W) (hf : fact.natAbs = 1) (h : makeFact olit fact W = .ok (u, W')) :
    W'.nextLit = W.nextLit ∧ (∀ v k m, OrdLit W' v k m → OrdLit W v k m ∨ m.natAbs = 1) ∧ (olit.natAbs ≠ 1 → ∀ v k, ¬ OrdLit W' v k olit) := by
  unfold makeFact at h
  simp only [smok] at h
  obtain ⟨e, W1, ⟨rfl, rfl⟩, h⟩ := h
  rcases h with ⟨hv, h⟩ | ⟨hv, rfl⟩
  · obtain ⟨vs, W2, ⟨g1, rfl⟩, old, W3, ⟨g2, rfl⟩, _, W4, ⟨g3, rfl⟩, vs', W5, ⟨g4, rfl⟩, _, W6, rfl, _, W7,
      ⟨ps, vs2, g5, rfl, rfl⟩, e2, W8, ⟨rfl, rfl⟩, _, W9, rfl, rfl⟩ := h
    obtain ⟨v0, v1, v2, v3⟩ := entry_valid hv
    have hw := hi.wf _ _ g1
    have hs := setLiteral_eff hw (by rintro rfl; cases hf) g4
    refine ⟨rfl, fun v k m h => ?_, fun ho v k h => ?_⟩
    · rcases ord_set (vs' := vs') (W := W5) rfl h with ⟨rfl, hq⟩ | ⟨-, hq⟩
      · have := (hs.mem _ _).mp hq
        split_ifs at this with hk
        · subst this; exact Or.inr hf
        · exact Or.inl ⟨vs, g1, this⟩
      · exact Or.inl hq
    · rcases ord_set (vs' := vs') (W := W5) rfl h with ⟨rfl, hq⟩ | ⟨hne, us, h1, h2⟩
      · have := (hs.mem _ _).mp hq
        split_ifs at this with hk
        · subst this; exact ho hf
        · obtain ⟨e', k1, -, -, k4, -⟩ := hi.own _ vs k olit g1 this ho
          rw [v1] at k1; injection k1 with k1; subst k1
          exact hk k4.symm
      · obtain ⟨e', k1, -, k3, k4, -⟩ := hi.own _ us k olit h1 h2 ho
        rw [v1] at k1; injection k1 with k1; subst k1
        exact hne k3.symm
  · refine ⟨rfl, fun v k m h => Or.inl h, fun ho v k => ?_⟩
    rintro ⟨us, h1, h2⟩
    have h0 : olit ≠ 0 := fun e => by
      subst e
      obtain ⟨e', k1, k2, k3, k4, k5⟩ := hi.own _ us k 0 h1 h2 ho
      have := (hi.link _ _ k1 k2).1
      simp [mapOffset] at this
    obtain ⟨e', k1, k2, k3, k4, k5⟩ := hi.own _ us k olit h1 h2 ho
    have : entryAt W'.litmap olit = e' := by
      rw [entryAt, if_neg h0, List.getD_eq_getElem?_getD, k1]; rfl
    rw [this] at hv
    rw [valid_iff.mpr ⟨k2, k5⟩] at hv
    exact absurd hv (by simp)

/-- The table after `dropFact`: the fact for the value is removed. -/
theorem dropFact_ord {f x : Int} {var : Nat} {u : Unit} (hi : TI W) (h : dropFact f var x W = .ok (u, W')) :
    W'.nextLit = W.nextLit ∧ W'.factmap = W.factmap ∧ (∀ v k m, OrdLit W' v k m → OrdLit W v k m ∧ ¬ (v = var ∧ k = x)) := by
  unfold dropFact at h
  simp only [smok] at h
  obtain ⟨vs, W1, ⟨h1, rfl⟩, old, W2, ⟨h2, rfl⟩, _, W3, ⟨h3, rfl⟩, _, W4, ⟨ps, vs4, h4, rfl, rfl⟩, vs', W5, ⟨h5, rfl⟩, rfl⟩ := h
  have hd := unsetLiteral_eff (hi.wf _ _ h1) h5
  refine ⟨rfl, rfl, fun v k m h => ?_⟩
  rcases ord_set (vs' := vs') (W := W3) rfl h with ⟨rfl, hq⟩ | ⟨hne, hq⟩
  · have := (hd.mem _ _).mp hq
    exact ⟨⟨vs, h1, this.2⟩, fun e => this.1 e.2⟩
  · exact ⟨hq, fun e => hne e.1⟩

theorem dropLit_ord {l : Int} {e : LitmapEntry} {u : Unit} (hi : TI W) (h : dropLit l e W = .ok (u, W')) :
    W'.nextLit = W.nextLit ∧ W'.factmap = W.factmap ∧ (∀ v k m, OrdLit W' v k m → OrdLit W v k m) := by
  unfold dropLit at h
  simp only [smok] at h
  obtain ⟨vs, W1, ⟨g1, rfl⟩, vs', W2, ⟨g2, rfl⟩, _, W3, rfl, _, W4, ⟨ps, vs2, g3, rfl, rfl⟩, rfl⟩ := h
  have hd := unsetLiteral_eff (hi.wf _ _ g1) g2
  refine ⟨rfl, rfl, fun v k m h => ?_⟩
  rcases ord_set (vs' := vs') (W := W2) rfl h with ⟨rfl, hq⟩ | ⟨hne, hq⟩
  · exact ⟨vs, g1, ((hd.mem _ _).mp hq).2⟩
  · exact hq

theorem updateStep_ord {m : Nat} : ∀ {n o : Nat} {W W' : World} {u : Unit}, TI W → updateStep m n o W = .ok (u, W') →
    W'.nextLit = W.nextLit ∧ W'.factmap = W.factmap ∧ (∀ v k m, OrdLit W' v k m → OrdLit W v k m)
  | 0, o, W, W', u, hi, h => by obtain ⟨-, rfl⟩ := pure_iff.mp h; exact ⟨rfl, rfl, fun _ _ _ h => h⟩
  | n + 1, o, W, W', u, hi, h => by
    unfold updateStep at h
    simp only [smok] at h
    obtain ⟨e, W1, ⟨rfl, rfl⟩, _, W2, h2, h3⟩ := h
    rcases h2 with ⟨hc, h2⟩ | ⟨-, rfl⟩
    · have hp : (entryAt W1.litmap ((o + 1 : Nat) : Int)).prev ≠ 0 := by
        simp only [LitmapEntry.invalid, Bool.and_eq_true] at hc
        simpa using hc.1
      have t2 := hi.ti_dropLit (entry_get hp) hp h2
      obtain ⟨a1, a2, a3⟩ := dropLit_ord hi h2
      obtain ⟨b1, b2, b3⟩ := updateStep_ord t2 h3
      exact ⟨b1.trans a1, b2.trans a2, fun v k m h => a3 v k m (b3 v k m h)⟩
    · exact updateStep_ord hi h3

theorem ord_bounds {v : Nat} {vs vs' : VarState} {W' : World} (hv : W.vars[v]? = some vs) (ht : vs'.table = vs.table) (he : W'.vars = W.vars.set v vs') {u : Nat} {k l : Int} :
    OrdLit W' u k l ↔ OrdLit W u k l := by
  constructor
  · intro h
    rcases ord_set he h with ⟨rfl, hq⟩ | ⟨-, hq⟩
    · exact ⟨vs, hv, by rwa [with_congr ht] at hq⟩
    · exact hq
  · intro h
    rcases ord_set' he hv h with ⟨rfl, hq⟩ | hq
    · exact ord_at he hv (by rwa [with_congr ht])
    · exact hq

theorem updateUpper_ord {lvl var : Nat} {value : Int} {u : Unit} (h : updateUpper lvl var value W = .ok (u, W')) :
    W'.nextLit = W.nextLit ∧ W'.litmap = W.litmap ∧ W'.factmap = W.factmap ∧ ∀ v k l, OrdLit W' v k l ↔ OrdLit W v k l := by
  unfold updateUpper at h
  simp only [smok] at h
  obtain ⟨vs, W1, ⟨hv, rfl⟩, _, W2, h2, _, W3, ⟨ha, rfl⟩, _, W4, rfl, rfl⟩ := h
  rcases h2 with ⟨-, rfl⟩ | ⟨-, rfl⟩
  · exact ⟨rfl, rfl, rfl, fun v k l => ord_bounds hv (by split_ifs <;> rfl) rfl⟩
  · exact ⟨rfl, rfl, rfl, fun v k l => ord_bounds hv (by split_ifs <;> rfl) rfl⟩

theorem updateLower_ord {lvl var : Nat} {value : Int} {u : Unit} (h : updateLower lvl var value W = .ok (u, W')) :
    W'.nextLit = W.nextLit ∧ W'.litmap = W.litmap ∧ W'.factmap = W.factmap ∧ ∀ v k l, OrdLit W' v k l ↔ OrdLit W v k l := by
  unfold updateLower at h
  simp only [smok] at h
  obtain ⟨vs, W1, ⟨hv, rfl⟩, _, W2, h2, _, W3, ⟨ha, rfl⟩, _, W4, rfl, rfl⟩ := h
  rcases h2 with ⟨-, rfl⟩ | ⟨-, rfl⟩
  · exact ⟨rfl, rfl, rfl, fun v k l => ord_bounds hv (by split_ifs <;> rfl) rfl⟩
  · exact ⟨rfl, rfl, rfl, fun v k l => ord_bounds hv (by split_ifs <;> rfl) rfl⟩

theorem undoLowerVar_ord {v : Nat} {u : Unit} (h : undoLowerVar v W = .ok (u, W')) :
    W'.nextLit = W.nextLit ∧ W'.factmap = W.factmap ∧ ∀ v k l, OrdLit W' v k l ↔ OrdLit W v k l := by
  unfold undoLowerVar at h
  simp only [smok] at h
  obtain ⟨vs, W1, ⟨hv, rfl⟩, vs', W2, ⟨hp, rfl⟩, _, W3, rfl, rfl⟩ := h
  have hne : vs.lowerStack ≠ [] := by intro e; unfold VarState.popLower at hp; rw [e] at hp; cases hp
  obtain ⟨x, e, h1, h2, h3⟩ := popLower_ok hne
  rw [e] at hp
  injection hp with hp
  subst hp
  exact ⟨rfl, rfl, fun _ _ _ => ord_bounds hv h3 rfl⟩

theorem undoUpperVar_ord {v : Nat} {u : Unit} (h : undoUpperVar v W = .ok (u, W')) :
    W'.nextLit = W.nextLit ∧ W'.factmap = W.factmap ∧ ∀ v k l, OrdLit W' v k l ↔ OrdLit W v k l := by
  unfold undoUpperVar at h
  simp only [smok] at h
  obtain ⟨vs, W1, ⟨hv, rfl⟩, vs', W2, ⟨hp, rfl⟩, _, W3, rfl, rfl⟩ := h
  have hne : vs.upperStack ≠ [] := by intro e; unfold VarState.popUpper at hp; rw [e] at hp; cases hp
  obtain ⟨x, e, h1, h2, h3⟩ := popUpper_ok hne
  rw [e] at hp
  injection hp with hp
  subst hp
  exact ⟨rfl, rfl, fun _ _ _ => ord_bounds hv h3 rfl⟩

/-! ### Old literals keep their meaning -/

/-- Order literals that are known literals of `W0` other than facts are order literals in `W0`. -/
structure Old (N : Int) (W0 W : World) : Prop where
  ti : TI W
  next : N ≤ W.nextLit
  old : ∀ v k l, OrdLit W v k l → l.natAbs ≠ 1 → (l.natAbs : Int) < N → OrdLit W0 v k l

theorem Old.refl (hi : TI W) : Old W.nextLit W W := ⟨hi, Int.le_refl _, fun _ _ _ h _ _ => h⟩

theorem Old.of {N : Int} (h : Old N W0 W) (ti : TI W') (hn : W.nextLit ≤ W'.nextLit)
    (ho : ∀ v k l, OrdLit W' v k l → OrdLit W v k l ∨ (l.natAbs : Int) = W.nextLit.natAbs ∨ l.natAbs = 1) : Old N W0 W' := by
  have := h.next
  refine ⟨ti, by omega, fun v k l hl h1 h2 => ?_⟩
  rcases ho v k l hl with hl | hl | hl
  · exact h.old v k l hl h1 h2
  · omega
  · exact absurd hl h1

theorem old_prim {N : Int} : Prim (Old N W0) where
  book _ _ _ h := ⟨h.ti.other rfl rfl rfl, h.next, h.old⟩
  event _ _ _ h := ⟨h.ti.other rfl rfl rfl, h.next, h.old⟩
  levels _ _ h := ⟨h.ti.other rfl rfl rfl, h.next, h.old⟩
  clear _ h := ⟨h.ti.other rfl rfl rfl, h.next, h.old⟩
  literal cc v x := ⟨fun W a W' hx h => by
    have g := getLiteral_eff h.ti.wf (by have := h.ti.pos; omega) hx
    exact h.of (g.ti h.ti) g.ord.2.1 (fun v k m hm => (g.ord.2.2 v k m hm).imp id Or.inl)⟩
  updLiteral cc v x t := ⟨fun W a W' hx h => by
    obtain ⟨-, g1, g2⟩ := updateLiteral_ord h.ti hx
    exact h.of ((ti_prim.updLiteral cc v x t).kw _ _ _ hx h.ti) g1 g2⟩
  mkFact a b hb := ⟨fun W a W' hx h => by
    obtain ⟨g1, g2, -⟩ := makeFact_ord h.ti hb hx
    exact h.of (h.ti.ti_makeFact hb hx) (by omega) (fun v k m hm => (g2 v k m hm).imp id Or.inr)⟩
  drFact f v x := ⟨fun W a W' hx h => by
    obtain ⟨g1, -, g2⟩ := dropFact_ord h.ti hx
    exact h.of (h.ti.ti_dropFact hx) (by omega) (fun v k m hm => Or.inl (g2 v k m hm).1)⟩
  step m n o := ⟨fun W a W' hx h => by
    obtain ⟨g1, -, g2⟩ := updateStep_ord h.ti hx
    exact h.of (ti_updateStep.kw _ _ _ hx h.ti) (by omega) (fun v k m hm => Or.inl (g2 v k m hm))⟩
  updLower hx _ h := by
    obtain ⟨g1, -, -, g2⟩ := updateLower_ord hx
    exact h.of (h.ti.ti_updateLower hx) (by omega) (fun v k m hm => Or.inl ((g2 v k m).mp hm))
  updUpper hx _ h := by
    obtain ⟨g1, -, -, g2⟩ := updateUpper_ord hx
    exact h.of (h.ti.ti_updateUpper hx) (by omega) (fun v k m hm => Or.inl ((g2 v k m).mp hm))
  popLower v := ⟨fun W a W' hx h => by
    obtain ⟨g1, -, g2⟩ := undoLowerVar_ord hx
    exact h.of (h.ti.ti_undoLowerVar hx) (by omega) (fun v k m hm => Or.inl ((g2 v k m).mp hm))⟩
  popUpper v := ⟨fun W a W' hx h => by
    obtain ⟨g1, -, g2⟩ := undoUpperVar_ord hx
    exact h.of (h.ti.ti_undoUpperVar hx) (by omega) (fun v k m hm => Or.inl ((g2 v k m).mp hm))⟩

/-! ### Order literals are kept off the top level -/

/-- The greatest lower bound and the least upper bound on the top level. -/
def mnF (F : List VarState × Book) (v : Nat) : Int := match F.1[v]? with | some vs => vs.minBound | none => 0
def mxF (F : List VarState × Book) (v : Nat) : Int := match F.1[v]? with | some vs => vs.maxBound | none => 0

theorem mn_get {v : Nat} {vs : VarState} (h : W.vars[v]? = some vs) : mnF (frame W) v = vs.minBound ∧ mxF (frame W) v = vs.maxBound := by
  unfold mnF mxF frame
  dsimp only
  rw [List.getElem?_map, h]
  exact ⟨rfl, rfl⟩

/-- All order literals of `W0` are kept, and so are the bounds on the top level. -/
structure Kept (W0 W : World) : Prop where
  ti : TI W
  kept : ∀ v k l, OrdLit W0 v k l → OrdLit W v k l
  len : W.vars.length = W0.vars.length
  mn : mnF (frame W) = mnF (frame W0)
  mx : mxF (frame W) = mxF (frame W0)

theorem Kept.refl (h : TI W) : Kept W W := ⟨h, fun _ _ _ h => h, rfl, rfl, rfl⟩

theorem Kept.trans {W1 : World} (h : Kept W0 W1) (h' : Kept W1 W) : Kept W0 W :=
  ⟨h'.ti, fun v k l hl => h'.kept v k l (h.kept v k l hl), h'.len.trans h.len, h'.mn.trans h.mn, h'.mx.trans h.mx⟩

theorem Kept.fr (h : Kept W0 W) (hf : frame W' = frame W) (ti : TI W') (hk : ∀ v k l, OrdLit W v k l → OrdLit W' v k l) : Kept W0 W' := by
  refine ⟨ti, fun v k l hl => hk v k l (h.kept v k l hl), ?_, by rw [hf]; exact h.mn, by rw [hf]; exact h.mx⟩
  have := congrArg (fun F => F.1.length) hf
  simp only [frame, List.length_map] at this
  exact this.trans h.len

/-- A variable state is replaced by one with the same bounds on the top level. -/
theorem Kept.set {v : Nat} {vs vs' : VarState} (h : Kept W0 W) (hv : W.vars[v]? = some vs) (he : W'.vars = W.vars.set v vs') (ti : TI W')
    (ht : vs'.table = vs.table) (h1 : vs'.minBound = vs.minBound) (h2 : vs'.maxBound = vs.maxBound) : Kept W0 W' := by
  have eq : ∀ w, mnF (frame W') w = mnF (frame W) w ∧ mxF (frame W') w = mxF (frame W) w := by
    intro w
    by_cases hw : w = v
    · subst hw
      have g : W'.vars[w]? = some vs' := by rw [he, List.getElem?_set_self (List.getElem?_eq_some_iff.mp hv).1]
      rw [(mn_get g).1, (mn_get hv).1, (mn_get g).2, (mn_get hv).2]
      exact ⟨h1, h2⟩
    · unfold mnF mxF frame
      dsimp only
      rw [List.getElem?_map, List.getElem?_map, he, List.getElem?_set_ne (fun e => hw e.symm)]
      exact ⟨rfl, rfl⟩
  exact ⟨ti, fun w k l hl => (ord_bounds hv ht he).mpr (h.kept w k l hl), by rw [he, List.length_set]; exact h.len,
    funext fun w => (eq w).1.trans (congrFun h.mn w), funext fun w => (eq w).2.trans (congrFun h.mx w)⟩

theorem kept_prim : PrimP (Kept W0) where
  book _ _ _ h := ⟨h.ti.other rfl rfl rfl, h.kept, h.len, h.mn, h.mx⟩
  event _ _ _ h := ⟨h.ti.other rfl rfl rfl, h.kept, h.len, h.mn, h.mx⟩
  levels _ _ h := ⟨h.ti.other rfl rfl rfl, h.kept, h.len, h.mn, h.mx⟩
  literal cc v x := ⟨fun W a W' hx h => by
    have g := getLiteral_eff h.ti.wf (by have := h.ti.pos; omega) hx
    exact h.fr (fr_getLiteral.fr _ _ _ hx) (g.ti h.ti) g.ord.1⟩
  updLiteral cc v x t := ⟨fun W a W' hx h => by
    obtain ⟨g, -, -⟩ := updateLiteral_ord h.ti hx
    exact h.fr (fr_updateLiteral.fr _ _ _ hx) ((ti_prim.updLiteral cc v x t).kw _ _ _ hx h.ti) g⟩
  popLower v := ⟨fun W a W' hx h => by
    have t := h.ti.ti_undoLowerVar hx
    unfold undoLowerVar at hx
    simp only [smok] at hx
    obtain ⟨vs, W1, ⟨hv, rfl⟩, vs', W2, ⟨hp, rfl⟩, _, W3, rfl, rfl⟩ := hx
    have hne : vs.lowerStack ≠ [] := by intro e; unfold VarState.popLower at hp; rw [e] at hp; cases hp
    obtain ⟨x, e, h1, h2, h3⟩ := popLower_ok hne
    rw [e] at hp
    injection hp with hp
    subst hp
    exact h.set hv rfl t h3 (by omega) (by omega)⟩
  popUpper v := ⟨fun W a W' hx h => by
    have t := h.ti.ti_undoUpperVar hx
    unfold undoUpperVar at hx
    simp only [smok] at hx
    obtain ⟨vs, W1, ⟨hv, rfl⟩, vs', W2, ⟨hp, rfl⟩, _, W3, rfl, rfl⟩ := hx
    have hne : vs.upperStack ≠ [] := by intro e; unfold VarState.popUpper at hp; rw [e] at hp; cases hp
    obtain ⟨x, e, h1, h2, h3⟩ := popUpper_ok hne
    rw [e] at hp
    injection hp with hp
    subst hp
    exact h.set hv rfl t h3 (by omega) (by omega)⟩

/-- Bounds are not changed. -/
theorem sameB_prim {X : List VarState} : Prim0 (fun W => (frame W).1 = X) where
  book _ _ _ h := h
  event _ _ _ h := h
  literal _ _ _ := ⟨fun W a W' hx h => by rw [fr_getLiteral.fr _ _ _ hx]; exact h⟩
  updLiteral _ _ _ _ := ⟨fun W a W' hx h => by rw [fr_updateLiteral.fr _ _ _ hx]; exact h⟩

end Clingcon
