import Verif.Proof.GivenTab
import Verif.Proof.Disjoint
import Verif.Proof.Base
import Verif.Proof.ExtProp

/-! While constraints are checked, bounds stay justified by literals. -/
set_option linter.unusedVariables false
namespace Clingcon
open Spec VarState

variable {α : Type} {W W0 W' : World} {cc : CC} {K : List Constr × Option Int} {L : List Lvl}

/-- A property of states that is kept during checks and ensures that bounds are justified if there are disjoint constraints. -/
structure Side (cc : CC) (K : List Constr × Option Int) (L : List Lvl) (J : World → Prop) : Prop where
  kw : ∀ {α : Type} {x : SM α}, Ext' false x → (∀ P, Prim0 P → Kw P x) → Kw J x
  book : ∀ W b, J W → J { W with book := b }
  integ : Kw J (integrateFacts cc)
  just : ∀ l es, Constr.disjoint l es ∈ K.1 → ∀ W, J W → BI (frame W) → W.book.levels = L → AllNested W ∧ BoundLits cc W

theorem boundLits_base (h : B0 (frame W)) : BoundLits cc W := by
  intro v vs hv
  have e1 := h.stL v
  have e2 := h.stU v
  simp only [lstF, ustF, frame, List.getElem?_map, hv] at e1 e2
  have e1 : vs.lowerStack = [] := by simpa [VarState.bounds] using e1
  have e2 : vs.upperStack = [] := by simpa [VarState.bounds, negStk] using e2
  unfold VarState.minBound VarState.maxBound
  rw [e1, e2]
  exact ⟨fun h => by simp at h, fun h => by simp at h⟩

theorem side_top (h : (∀ l es, Constr.disjoint l es ∉ K.1) ∨ L = [baseLvl]) : Side cc K L AllNested where
  kw hx h := h _ nested_prim.toPrim0
  book W b h := h
  integ := kw_integrateFacts nested_prim.toPrimN.toPrimD
  just l es hm W hn hb hl := by
    refine ⟨hn, boundLits_base ?_⟩
    rcases h with h | h
    · exact absurd hm (h l es)
    · exact hb.base (hl.trans h)

/-- The state has the same bounds as another one, and literals are kept. -/
structure Deep (W0 W : World) : Prop where
  nested : AllNested W
  kept : Kept W0 W
  same : (frame W).1 = (frame W0).1
  log : ∃ new, W.log = new ++ W0.log

theorem Deep.just (h : Deep W0 W) (hv : EnvMono cc) (hb : BoundLits cc W0) : BoundLits cc W := by
  intro v vs hvs
  have hv1 : (frame W).1[v]? = some vs.bounds := by simp [frame, hvs]
  rw [h.same] at hv1
  simp only [frame, List.getElem?_map, Option.map_eq_some_iff] at hv1
  obtain ⟨vs0, hv0, e⟩ := hv1
  have e1 : vs0.lower = vs.lower := by have := congrArg VarState.lower e; exact this
  have e2 : vs0.upper = vs.upper := by have := congrArg VarState.upper e; exact this
  have e3 : vs0.minBound = vs.minBound := by have := congrArg VarState.minBound e; exact this
  have e4 : vs0.maxBound = vs.maxBound := by have := congrArg VarState.maxBound e; exact this
  obtain ⟨b1, b2⟩ := hb v vs0 hv0
  rw [e1, e3] at b1
  rw [e2, e4] at b2
  obtain ⟨new, hl⟩ := h.log
  have get : ∀ k l, (k, l) ∈ vs0.with → (k, l) ∈ vs.with := by
    intro k l hm
    obtain ⟨vs', hv', hm'⟩ := h.kept.kept v k l ⟨vs0, hv0, hm⟩
    rw [hvs] at hv'
    injection hv' with hv'
    subst hv'
    exact hm'
  have tr : ∀ l, cc.isTrue W0.log l = true → cc.isTrue W.log l = true := by
    intro l ht
    rw [hl]
    clear hl
    induction new with
    | nil => exact ht
    | cons e new ih => exact hv.isTrue ih
  have fa : ∀ l, cc.isFalse W0.log l = true → cc.isFalse W.log l = true := by
    intro l ht
    rw [hl]
    clear hl
    induction new with
    | nil => exact ht
    | cons e new ih => exact hv.isFalse ih
  refine ⟨fun hlt => ?_, fun hlt => ?_⟩
  · obtain ⟨l, hm, ht⟩ := b1 hlt
    exact ⟨l, get _ _ hm, fa l ht⟩
  · obtain ⟨l, hm, ht⟩ := b2 hlt
    exact ⟨l, get _ _ hm, tr l ht⟩

theorem Deep.refl (hn : AllNested W) (ht : TI W) : Deep W W := ⟨hn, Kept.refl ht, rfl, [], rfl⟩

theorem side_deep (h0 : cc.level ≠ 0) (hv : EnvMono cc) (hb : BoundLits cc W0) : Side cc K L (Deep W0) where
  kw hx h := ⟨fun W a W' hw hd => by
    refine ⟨(h _ nested_prim.toPrim0).kw _ _ _ hw hd.nested, (h _ (kept_prim (W0 := W0)).toPrim0).kw _ _ _ hw hd.kept,
      (h _ (sameB_prim (X := (frame W0).1))).kw _ _ _ hw hd.same, ?_⟩
    obtain ⟨n1, e1⟩ := (hx.ext _ _ _ hw).1
    obtain ⟨n2, e2⟩ := hd.log
    exact ⟨n1 ++ n2, by rw [e1, e2, List.append_assoc]⟩⟩
  book W b h := ⟨h.nested, ⟨h.kept.ti.other rfl rfl rfl, h.kept.kept, h.kept.len, h.kept.mn, h.kept.mx⟩, h.same, h.log⟩
  integ := kwi_integrateFacts h0
  just l es hm W hd _ _ := ⟨hd.nested, hd.just hv hb⟩

/-- There is such a property for a call. -/
theorem side_of (hw : BI (frame W)) (hbase : W.book.levels.getLast? = some baseLvl) (hn : AllNested W) (ht : TI W) (hv : EnvMono cc)
    (hj : ∀ l es, Constr.disjoint l es ∈ K.1 → BoundLits cc W ∧ (1 < W.book.levels.length → cc.level ≠ 0)) :
    ∃ J, Side cc K W.book.levels J ∧ J W ∧ (cc.level = 0 → ∀ ls, Kw J (solverPropagate cc ls)) := by
  by_cases hd : ∀ l es, Constr.disjoint l es ∉ K.1
  · exact ⟨_, side_top (Or.inl hd), hn, fun _ ls => kw_solverPropagate nested_prim.toPrimN.toPrimD⟩
  · push Not at hd
    obtain ⟨l, es, hd⟩ := hd
    obtain ⟨hb, hl⟩ := hj l es hd
    by_cases h1 : 1 < W.book.levels.length
    · exact ⟨_, side_deep (hl h1) hv hb, Deep.refl hn ht, fun h0 => absurd h0 (hl h1)⟩
    · refine ⟨_, side_top (Or.inr ?_), hn, fun _ ls => kw_solverPropagate nested_prim.toPrimN.toPrimD⟩
      match hh : W.book.levels with
      | [] => rw [hh] at hbase; cases hbase
      | [x] => rw [hh] at hbase; injection hbase with hbase; rw [← hbase]; rfl
      | _ :: _ :: _ => rw [hh] at h1; simp at h1

end Clingcon
