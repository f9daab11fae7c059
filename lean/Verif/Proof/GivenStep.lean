import Verif.Proof.GivenTab
import Verif.Proof.Steps
import Verif.Proof.Stable

/-! Integrating a literal: it fixes the bound of the variable, and bounds only change to values of literals that are integrated. -/
set_option linter.unusedSimpArgs false
set_option linter.unusedVariables false
namespace Clingcon
open Spec VarState

/-! ### Bounds become tighter -/

theorem Tight.set {F F' : List VarState × Book} {v : Nat} {y y' : VarState} (hv : F.1[v]? = some y) (he : F'.1 = F.1.set v y') (h1 : y.lower ≤ y'.lower)
    (h2 : y'.upper ≤ y.upper) : Tight F F' := by
  refine ⟨by rw [he, List.length_set], fun w => ?_⟩
  unfold loF upF
  rw [he]
  by_cases hw : w = v
  · subst hw
    rw [List.getElem?_set_self (List.getElem?_eq_some_iff.mp hv).1, hv]
    exact ⟨h1, h2⟩
  · rw [List.getElem?_set_ne (fun e => hw e.symm)]
    exact ⟨Int.le_refl _, Int.le_refl _⟩

theorem tight_prim {F : List VarState × Book} : PrimN (fun W => Tight F (frame W)) where
  book W b _ h := h.trans (Tight.of (F := frame W) (F' := frame { W with book := b }) rfl)
  event W e _ h := h.trans (Tight.of (F := frame W) (F' := frame { W with log := e :: W.log }) rfl)
  levels W ls h := h.trans (Tight.of (F := frame W) (F' := frame { W with book.levels := ls }) rfl)
  clear _ h := h
  literal _ _ _ := ⟨fun W a W' hx h => by rw [fr_getLiteral.fr _ _ _ hx]; exact h⟩
  updLiteral _ _ _ _ := ⟨fun W a W' hx h => by rw [fr_updateLiteral.fr _ _ _ hx]; exact h⟩
  mkFact _ _ _ := ⟨fun W a W' hx h => by rw [fr_makeFact.fr _ _ _ hx]; exact h⟩
  drFact _ _ _ := ⟨fun W a W' hx h => by rw [fr_dropFact.fr _ _ _ hx]; exact h⟩
  step _ _ _ := ⟨fun W a W' hx h => by rw [fr_updateStep.fr _ _ _ hx]; exact h⟩
  updLower {l v x W u W'} hx hc h := by
    obtain ⟨y, hv, e⟩ := updateLower_frame hx
    obtain ⟨h1, h2⟩ := hc y hv
    refine h.trans (Tight.set (v := v) (y := y.bounds) (y' := _) ?_ (congrArg Prod.fst e) ?_ (Int.le_refl _))
    · simp only [frame]
      rw [List.getElem?_map, hv]; rfl
    · exact Int.le_of_lt h1
  updUpper {l v x W u W'} hx hc h := by
    obtain ⟨y, hv, e⟩ := updateUpper_frame hx
    obtain ⟨h1, h2⟩ := hc y hv
    refine h.trans (Tight.set (v := v) (y := y.bounds) (y' := _) ?_ (congrArg Prod.fst e) (Int.le_refl _) ?_)
    · simp only [frame]
      rw [List.getElem?_map, hv]; rfl
    · exact Int.le_of_lt h1

variable {α γ : Type} {W W0 W' : World} {cc : CC}

theorem TI.nz (hi : TI W) {v : Nat} {k l : Int} (h : OrdLit W v k l) : l ≠ 0 := by
  rintro rfl
  obtain ⟨us, h1, h2⟩ := h
  obtain ⟨e', k1, k2, -⟩ := hi.own _ us k 0 h1 h2 (by decide)
  have := (hi.link _ _ k1 k2).1
  simp [mapOffset] at this

theorem TI.entry (hi : TI W) {v : Nat} {k l : Int} (h : OrdLit W v k l) (h1 : l.natAbs ≠ 1) :
    (entryAt W.litmap l).valid l = true ∧ (entryAt W.litmap l).var = v ∧ (entryAt W.litmap l).value = k := by
  have h0 := hi.nz h
  obtain ⟨us, g1, g2⟩ := h
  obtain ⟨e', k1, k2, k3, k4, k5⟩ := hi.own _ us k l g1 g2 h1
  have : entryAt W.litmap l = e' := by
    rw [entryAt, if_neg h0, List.getD_eq_getElem?_getD, k1]; rfl
  rw [this]
  exact ⟨valid_iff.mpr ⟨k2, k5⟩, k3, k4⟩

theorem TI.ord (hi : TI W) {l : Int} (h : (entryAt W.litmap l).valid l = true) : OrdLit W (entryAt W.litmap l).var (entryAt W.litmap l).value l := by
  obtain ⟨v0, v1, v2, v3⟩ := entry_valid h
  obtain ⟨-, vs, g, -⟩ := hi.link _ _ v1 v2
  have := hi.mem _ _ v1 v2 vs g
  rw [v3, litAt_offset v0] at this
  exact ⟨vs, g, this⟩

/-! ### Changes of a bound -/

theorem lo_get {v : Nat} {vs : VarState} (h : W.vars[v]? = some vs) : loF (frame W) v = vs.lower ∧ upF (frame W) v = vs.upper := by
  unfold loF upF frame
  dsimp only
  rw [List.getElem?_map, h]
  exact ⟨rfl, rfl⟩

theorem fr_bounds {F F' : List VarState × Book} (h : F'.1 = F.1) : loF F' = loF F ∧ upF F' = upF F := by
  constructor <;> funext v
  · unfold loF; rw [h]
  · unfold upF; rw [h]

/-- The effect of `update_upper_` on bounds. -/
theorem updateUpperLit_bounds {lvl v : Nat} {l x s : Int} {r : Bool} (h : updateUpperLit cc lvl v l x s W = .ok (r, W')) :
    loF (frame W') = loF (frame W) ∧ (∀ w, upF (frame W') w = upF (frame W) w ∨ w = v ∧ upF (frame W') w = x) ∧ (r = true → upF (frame W') v ≤ x) := by
  unfold updateUpperLit at h
  rw [bind_iff] at h
  obtain ⟨vs, W1, h1, h⟩ := h
  obtain ⟨hv, rfl⟩ := getVar_iff.mp h1
  split_ifs at h with hc
  · rw [bind_iff] at h
    obtain ⟨m, W2, h2, h⟩ := h
    have e1 := fr_getLiteral.fr _ _ _ h2
    rw [bind_iff] at h
    obtain ⟨b, W3, h3, h⟩ := h
    obtain ⟨-, rfl⟩ := addClause_iff.mp h3
    rw [bind_iff] at h
    obtain ⟨_, W4, h4, h⟩ := h
    obtain ⟨rfl, rfl⟩ := pure_iff.mp h
    have e2 : frame W' = frame W1 := by
      rcases whenS_iff.mp h4 with ⟨-, h4⟩ | ⟨-, rfl⟩
      · obtain ⟨c, h5⟩ := discard_iff.mp h4
        obtain ⟨-, rfl⟩ := ccPropagate_iff.mp h5
        exact e1
      · exact e1
    rw [e2]
    exact ⟨rfl, fun w => Or.inl rfl, fun h => by cases h⟩
  · rw [bind_iff] at h
    obtain ⟨_, W2, h2, h⟩ := h
    have key : loF (frame W2) = loF (frame W1) ∧ (∀ w, upF (frame W2) w = upF (frame W1) w ∨ w = v ∧ upF (frame W2) w = x) ∧ upF (frame W2) v ≤ x := by
      rcases whenS_iff.mp h2 with ⟨hd, h2⟩ | ⟨hd, rfl⟩
      · obtain ⟨y, hy, e⟩ := updateUpper_frame h2
        have e1 := congrArg Prod.fst e
        dsimp only at e1
        have hlen : v < (frame W1).1.length := by
          simp only [frame, List.length_map]; exact (List.getElem?_eq_some_iff.mp hy).1
        have b : ∀ w, loF (frame W2) w = loF (frame W1) w ∧ upF (frame W2) w = if w = v then x else upF (frame W1) w := by
          intro w
          by_cases hw : w = v
          · subst hw
            rw [if_pos rfl, (lo_get hy).1]
            unfold loF upF
            rw [e1, List.getElem?_set_self hlen]
            exact ⟨rfl, rfl⟩
          · rw [if_neg hw]
            unfold loF upF
            rw [e1, List.getElem?_set_ne (fun e => hw e.symm)]
            exact ⟨rfl, rfl⟩
        refine ⟨funext fun w => (b w).1, fun w => ?_, ?_⟩
        · have := (b w).2
          split_ifs at this with hw
          · exact Or.inr ⟨hw, this⟩
          · exact Or.inl this
        · rw [(b v).2, if_pos rfl]
      · refine ⟨rfl, fun w => Or.inl rfl, ?_⟩
        rw [(lo_get hv).2]
        simpa using hd
    have e : frame W' = frame W2 := by
      refine Fr.fr (x := _) ?_ _ _ _ h
      fr_auto
    rw [e]
    exact ⟨key.1, key.2.1, fun _ => key.2.2⟩

/-- The effect of `update_lower_` on bounds. -/
theorem updateLowerLit_bounds {lvl v : Nat} {l x s : Int} {r : Bool} (h : updateLowerLit cc lvl v l x s W = .ok (r, W')) :
    upF (frame W') = upF (frame W) ∧ (∀ w, loF (frame W') w = loF (frame W) w ∨ w = v ∧ loF (frame W') w = x + 1) ∧ (r = true → x < loF (frame W') v) := by
  unfold updateLowerLit at h
  rw [bind_iff] at h
  obtain ⟨vs, W1, h1, h⟩ := h
  obtain ⟨hv, rfl⟩ := getVar_iff.mp h1
  split_ifs at h with hc
  · rw [bind_iff] at h
    obtain ⟨m, W2, h2, h⟩ := h
    have e1 := fr_getLiteral.fr _ _ _ h2
    rw [bind_iff] at h
    obtain ⟨b, W3, h3, h⟩ := h
    obtain ⟨-, rfl⟩ := addClause_iff.mp h3
    rw [bind_iff] at h
    obtain ⟨_, W4, h4, h⟩ := h
    obtain ⟨rfl, rfl⟩ := pure_iff.mp h
    have e2 : frame W' = frame W1 := by
      rcases whenS_iff.mp h4 with ⟨-, h4⟩ | ⟨-, rfl⟩
      · obtain ⟨c, h5⟩ := discard_iff.mp h4
        obtain ⟨-, rfl⟩ := ccPropagate_iff.mp h5
        exact e1
      · exact e1
    rw [e2]
    exact ⟨rfl, fun w => Or.inl rfl, fun h => by cases h⟩
  · rw [bind_iff] at h
    obtain ⟨_, W2, h2, h⟩ := h
    have key : upF (frame W2) = upF (frame W1) ∧ (∀ w, loF (frame W2) w = loF (frame W1) w ∨ w = v ∧ loF (frame W2) w = x + 1) ∧ x < loF (frame W2) v := by
      rcases whenS_iff.mp h2 with ⟨hd, h2⟩ | ⟨hd, rfl⟩
      · obtain ⟨y, hy, e⟩ := updateLower_frame h2
        have e1 := congrArg Prod.fst e
        dsimp only at e1
        have hlen : v < (frame W1).1.length := by
          simp only [frame, List.length_map]; exact (List.getElem?_eq_some_iff.mp hy).1
        have b : ∀ w, upF (frame W2) w = upF (frame W1) w ∧ loF (frame W2) w = if w = v then x + 1 else loF (frame W1) w := by
          intro w
          by_cases hw : w = v
          · subst hw
            rw [if_pos rfl, (lo_get hy).2]
            unfold loF upF
            rw [e1, List.getElem?_set_self hlen]
            exact ⟨rfl, rfl⟩
          · rw [if_neg hw]
            unfold loF upF
            rw [e1, List.getElem?_set_ne (fun e => hw e.symm)]
            exact ⟨rfl, rfl⟩
        refine ⟨funext fun w => (b w).1, fun w => ?_, ?_⟩
        · have := (b w).2
          split_ifs at this with hw
          · exact Or.inr ⟨hw, this⟩
          · exact Or.inl this
        · rw [(b v).2, if_pos rfl]; omega
      · refine ⟨rfl, fun w => Or.inl rfl, ?_⟩
        rw [(lo_get hv).1]
        have : ¬ vs.lower < x + 1 := by simpa using hd
        omega
    have e : frame W' = frame W2 := by
      refine Fr.fr (x := _) ?_ _ _ _ h
      fr_auto
    rw [e]
    exact ⟨key.1, key.2.1, fun _ => key.2.2⟩

/-! ### Order literals off the top level -/

theorem kept_updateUpper {lvl v : Nat} {x : Int} {u : Unit} (h0 : 0 < lvl) (hx : updateUpper lvl v x W = .ok (u, W')) (h : Kept W0 W) : Kept W0 W' := by
  have t := h.ti.ti_updateUpper hx
  unfold updateUpper at hx
  simp only [smok] at hx
  obtain ⟨vs, W1, ⟨hv, rfl⟩, _, W2, h2, _, W3, ⟨ha, rfl⟩, _, W4, rfl, rfl⟩ := hx
  have e1 : W3.vars = W1.vars := by rcases h2 with ⟨-, rfl⟩ | ⟨-, rfl⟩ <;> rfl
  refine h.set (vs' := { (if (decide (lvl > 0) && !vs.pushedUpper lvl) = true then vs.pushUpper lvl else vs) with upper := x }) hv ?_ t ?_ ?_ ?_
  · show W3.vars.set v _ = _
    rw [e1]
  · split_ifs <;> rfl
  · split_ifs <;> rfl
  · split_ifs with hc
    · rw [max_of_stack (by simp [VarState.pushUpper]), VarState.pushUpper_max]
    · have hp : vs.pushedUpper lvl = true := by
        simp only [h0, gt_iff_lt, decide_true, Bool.true_and, Bool.not_eq_true', Bool.not_eq_false] at hc
        exact hc
      have hne : vs.upperStack ≠ [] := by
        intro e
        unfold VarState.pushedUpper at hp
        rw [e] at hp; cases hp
      rw [max_of_stack hne]

theorem kept_updateLower {lvl v : Nat} {x : Int} {u : Unit} (h0 : 0 < lvl) (hx : updateLower lvl v x W = .ok (u, W')) (h : Kept W0 W) : Kept W0 W' := by
  have t := h.ti.ti_updateLower hx
  unfold updateLower at hx
  simp only [smok] at hx
  obtain ⟨vs, W1, ⟨hv, rfl⟩, _, W2, h2, _, W3, ⟨ha, rfl⟩, _, W4, rfl, rfl⟩ := hx
  have e1 : W3.vars = W1.vars := by rcases h2 with ⟨-, rfl⟩ | ⟨-, rfl⟩ <;> rfl
  refine h.set (vs' := { (if (decide (lvl > 0) && !vs.pushedLower lvl) = true then vs.pushLower lvl else vs) with lower := x + 1 }) hv ?_ t ?_ ?_ ?_
  · show W3.vars.set v _ = _
    rw [e1]
  · split_ifs <;> rfl
  · split_ifs with hc
    · rw [min_of_stack (by simp [VarState.pushLower]), VarState.pushLower_min]
    · have hp : vs.pushedLower lvl = true := by
        simp only [h0, gt_iff_lt, decide_true, Bool.true_and, Bool.not_eq_true', Bool.not_eq_false] at hc
        exact hc
      have hne : vs.lowerStack ≠ [] := by
        intro e
        unfold VarState.pushedLower at hp
        rw [e] at hp; cases hp
      rw [min_of_stack hne]
  · split_ifs <;> rfl

theorem kept_updateUpperLit {lvl v : Nat} {l x s : Int} (h0 : 0 < lvl) : Kw (Kept W0) (updateUpperLit cc lvl v l x s) := by
  have hP := kept_prim (W0 := W0)
  have hu : Kw (Kept W0) (updateUpper lvl v x) := ⟨fun W a W' hx h => kept_updateUpper h0 hx h⟩
  unfold updateUpperLit; kw_auto

theorem kept_updateLowerLit {lvl v : Nat} {l x s : Int} (h0 : 0 < lvl) : Kw (Kept W0) (updateLowerLit cc lvl v l x s) := by
  have hP := kept_prim (W0 := W0)
  have hu : Kw (Kept W0) (updateLower lvl v x) := ⟨fun W a W' hx h => kept_updateLower h0 hx h⟩
  unfold updateLowerLit; kw_auto

/-! ### Integrating a literal -/

theorem curLevel_level {l : Lvl} (h : curLevel W = .ok (l, W')) : l.level = W.level ∧ W' = W := by
  obtain ⟨hl, rfl⟩ := curLevel_iff.mp h
  refine ⟨?_, rfl⟩
  unfold World.level
  cases hh : W'.book.levels with
  | nil => rw [hh] at hl; cases hl
  | cons x xs => rw [hh] at hl; injection hl with hl; subst hl; rfl

/-- The two ways a literal is integrated. -/
theorem updateDomain_cases {l : Int} {r : Bool} (h : updateDomain cc l W = .ok (r, W')) :
    (cc.level = 0 ∧ (l = TRUE_LIT ∨ ∃ W1 W2, makeFact l TRUE_LIT W = .ok ((), W1) ∧ makeFact (-l) (-TRUE_LIT) W1 = .ok ((), W2) ∧ ∀ P, PrimN P → P W2 → P W')) ∨
    (∃ b W1, l ≠ TRUE_LIT ∧
      ((entryAt W.litmap l).valid l = true ∧ updateUpperLit cc W.level (entryAt W.litmap l).var l (entryAt W.litmap l).value (entryAt W.litmap l).succ W = .ok (b, W1) ∨
        (entryAt W.litmap l).valid l = false ∧ b = true ∧ W1 = W) ∧
      (b = false ∧ r = false ∧ W' = W1 ∨
       b = true ∧ ((entryAt W1.litmap (-l)).valid (-l) = true ∧
          updateLowerLit cc W.level (entryAt W1.litmap (-l)).var l (entryAt W1.litmap (-l)).value (entryAt W1.litmap (-l)).prev W1 = .ok (r, W') ∨
         (entryAt W1.litmap (-l)).valid (-l) = false ∧ r = true ∧ W' = W1))) := by
  unfold updateDomain at h
  rw [bind_iff] at h
  obtain ⟨lvl, W1, h1, h⟩ := h
  obtain ⟨el, rfl⟩ := curLevel_level h1
  rw [el] at h
  rw [bind_iff] at h
  obtain ⟨t, W2, h2, h⟩ := h
  obtain ⟨rfl, rfl⟩ := qTrue_iff.mp h2
  rw [bind_iff] at h
  obtain ⟨_, W3, h3, h⟩ := h
  obtain ⟨-, rfl⟩ := assertS_iff.mp h3
  rw [bind_iff] at h
  obtain ⟨l', W4, h4, h⟩ := h
  split_ifs at h with hl
  · left
    have hrest : ∀ P, PrimN P → P W4 → P W' := by
      intro P hP hp
      have hc : Kw P (modify (fun W : World => { W with factmap := [] }) : SM Unit) :=
        ⟨fun W a W' hx hp => by rw [modify_iff.mp hx]; exact hP.clear _ hp⟩
      refine Kw.kw (P := P) ?_ _ _ _ h hp
      kw_auto
    rw [bind_iff] at h
    obtain ⟨n, W5, h5, h⟩ := h
    obtain ⟨rfl, rfl⟩ := qLevel_iff.mp h5
    rw [bind_iff] at h
    obtain ⟨_, W6, h6, h⟩ := h
    obtain ⟨hz, -⟩ := assertS_iff.mp h6
    refine ⟨by simpa using hz, ?_⟩
    unfold simplifyLit at h4
    rw [bind_iff] at h4
    obtain ⟨f, W5, h5, h4⟩ := h4
    obtain ⟨rfl, rfl⟩ := qFixed_iff.mp h5
    split_ifs at h4 with hc
    · simp only [smok] at h4
      obtain ⟨_, W6, g1, _, W7, g2, rfl, rfl⟩ := h4
      exact Or.inr ⟨W6, _, g1, g2, hrest⟩
    · obtain ⟨rfl, rfl⟩ := pure_iff.mp h4
      exact Or.inl hl
  · right
    have : l' = l ∧ W4 = W3 := by
      unfold simplifyLit at h4
      rw [bind_iff] at h4
      obtain ⟨f, W5, h5, h4⟩ := h4
      obtain ⟨rfl, rfl⟩ := qFixed_iff.mp h5
      split_ifs at h4 with hc
      · simp only [smok] at h4
        obtain ⟨_, W6, -, _, W7, -, rfl, rfl⟩ := h4
        exact absurd rfl hl
      · obtain ⟨rfl, rfl⟩ := pure_iff.mp h4
        exact ⟨rfl, rfl⟩
    obtain ⟨rfl, rfl⟩ := this
    rw [bind_iff] at h
    obtain ⟨e, W5, h5, h⟩ := h
    obtain ⟨rfl, rfl⟩ := litmapAt_iff.mp h5
    rw [bind_iff] at h
    obtain ⟨b, W6, h6, h⟩ := h
    refine ⟨b, W6, hl, ?_, ?_⟩
    · split_ifs at h6 with hv
      · exact Or.inl ⟨hv, h6⟩
      · obtain ⟨rfl, rfl⟩ := pure_iff.mp h6
        exact Or.inr ⟨by simpa using hv, rfl, rfl⟩
    · cases b with
      | false =>
        obtain ⟨rfl, rfl⟩ := pure_iff.mp h
        exact Or.inl ⟨rfl, rfl, rfl⟩
      | true =>
        right
        refine ⟨rfl, ?_⟩
        simp only [Bool.not_true, Bool.false_eq_true, if_false] at h
        rw [bind_iff] at h
        obtain ⟨e, W7, h7, h⟩ := h
        obtain ⟨rfl, rfl⟩ := litmapAt_iff.mp h7
        split_ifs at h with hv
        · exact Or.inl ⟨hv, h⟩
        · obtain ⟨rfl, rfl⟩ := pure_iff.mp h
          exact Or.inr ⟨by simpa using hv, rfl, rfl⟩

theorem litmap_updateUpperLit {lvl v : Nat} {l x s : Int} {b : Bool} (hi : TI W) (h : updateUpperLit cc lvl v l x s W = .ok (b, W')) : TI W' :=
  (kw_updateUpperLit ti_prim.toPrimN).kw _ _ _ h hi

/-- After a literal has been integrated, the bounds of the variables it is an order literal of are set. -/
theorem updateDomain_fwd {l : Int} (hi : TI W) (h1 : l.natAbs ≠ 1) (hn : (l.natAbs : Int) < W.nextLit) (h : updateDomain cc l W = .ok (true, W')) (v : Nat) (k : Int) :
    (OrdLit W' v k l → upF (frame W') v ≤ k) ∧ (OrdLit W' v k (-l) → k < loF (frame W') v) := by
  have hn' : ((-l).natAbs : Int) < W.nextLit := by rw [Int.natAbs_neg]; exact hn
  have h1' : (-l).natAbs ≠ 1 := by rw [Int.natAbs_neg]; exact h1
  have o := (kw_updateDomain (old_prim (W0 := W) (N := W.nextLit)).toPrimN).kw _ _ _ h (Old.refl hi)
  rcases updateDomain_cases h with ⟨-, rfl | ⟨W1, W2, g1, g2, g3⟩⟩ | ⟨b, W1, hl, g1, g2⟩
  · exact absurd rfl h1
  · have t1 := hi.ti_makeFact rfl g1
    obtain ⟨e1, -, f1⟩ := makeFact_ord hi rfl g1
    obtain ⟨e2, p2, f2⟩ := makeFact_ord t1 rfl g2
    have t2 := t1.ti_makeFact rfl g2
    have o2 := g3 _ (old_prim (W0 := W2) (N := W2.nextLit)).toPrimN (Old.refl t2)
    constructor <;> intro hh
    · rcases p2 v k l (o2.old v k l hh h1 (by omega)) with hp | hp
      · exact absurd hp (f1 h1 v k)
      · exact absurd hp h1
    · exact absurd (o2.old v k (-l) hh h1' (by omega)) (f2 h1' v k)
  · rcases g2 with ⟨-, e, -⟩ | ⟨rfl, g2⟩
    · cases e
    have o1 : Old W.nextLit W W1 := by
      rcases g1 with ⟨-, g1⟩ | ⟨-, -, rfl⟩
      · exact (kw_updateUpperLit (old_prim (W0 := W) (N := W.nextLit)).toPrimN).kw _ _ _ g1 (Old.refl hi)
      · exact Old.refl hi
    have o2 : Old W1.nextLit W1 W' := by
      rcases g2 with ⟨-, g2⟩ | ⟨-, -, rfl⟩
      · exact (kw_updateLowerLit (old_prim (W0 := W1) (N := W1.nextLit)).toPrimN).kw _ _ _ g2 (Old.refl o1.ti)
      · exact Old.refl o1.ti
    have hnn := o1.next
    constructor <;> intro hh
    · have hq := o.old v k l hh h1 hn
      obtain ⟨a1, a2, a3⟩ := hi.entry hq h1
      rcases g1 with ⟨-, g1⟩ | ⟨hf, -⟩
      · rw [a2, a3] at g1
        have := (updateUpperLit_bounds g1).2.2 rfl
        rcases g2 with ⟨-, g2⟩ | ⟨-, -, rfl⟩
        · rw [congrFun (updateLowerLit_bounds g2).1 v]; exact this
        · exact this
      · rw [a1] at hf; cases hf
    · have hq := o2.old v k (-l) hh h1' (by omega)
      obtain ⟨a1, a2, a3⟩ := o1.ti.entry hq h1'
      rcases g2 with ⟨-, g2⟩ | ⟨hf, -⟩
      · rw [a2, a3] at g2
        exact (updateLowerLit_bounds g2).2.2 rfl
      · rw [a1] at hf; cases hf

/-- Off the top level, bounds only change to values of the literal that is integrated. -/
theorem updateDomain_deep {l : Int} {r : Bool} (hi : TI W) (hc : cc.level ≠ 0) (hl : 0 < W.level) (h : updateDomain cc l W = .ok (r, W')) : Kept W W' ∧
    ∀ v, (upF (frame W') v = upF (frame W) v ∨ OrdLit W' v (upF (frame W') v) l) ∧ (loF (frame W') v = loF (frame W) v ∨ OrdLit W' v (loF (frame W') v - 1) (-l)) := by
  rcases updateDomain_cases h with ⟨h0, -⟩ | ⟨b, W1, hl', g1, g2⟩
  · exact absurd h0 hc
  have k1 : Kept W W1 ∧ loF (frame W1) = loF (frame W) ∧ ∀ v, upF (frame W1) v = upF (frame W) v ∨ OrdLit W v (upF (frame W1) v) l := by
    rcases g1 with ⟨hv, g1⟩ | ⟨-, -, rfl⟩
    · refine ⟨(kept_updateUpperLit hl).kw _ _ _ g1 (Kept.refl hi), (updateUpperLit_bounds g1).1, fun v => ?_⟩
      rcases (updateUpperLit_bounds g1).2.1 v with e | ⟨rfl, e⟩
      · exact Or.inl e
      · right
        rw [e]
        exact hi.ord hv
    · exact ⟨Kept.refl hi, rfl, fun v => Or.inl rfl⟩
  obtain ⟨k1, e1, p1⟩ := k1
  rcases g2 with ⟨-, -, rfl⟩ | ⟨-, g2⟩
  · exact ⟨k1, fun v => ⟨(p1 v).imp id (k1.kept _ _ _), Or.inl (congrFun e1 v)⟩⟩
  rcases g2 with ⟨hv, g2⟩ | ⟨-, -, rfl⟩
  · have k2 := (kept_updateLowerLit hl).kw _ _ _ g2 (Kept.refl k1.ti)
    have k := k1.trans k2
    obtain ⟨b1, b2, -⟩ := updateLowerLit_bounds g2
    refine ⟨k, fun v => ⟨?_, ?_⟩⟩
    · rw [congrFun b1 v]
      exact (p1 v).imp id (k.kept _ _ _)
    · rcases b2 v with e | ⟨rfl, e⟩
      · left; rw [e, congrFun e1 v]
      · right
        rw [e]
        have := k2.kept _ _ _ (k1.ti.ord hv)
        simpa using this
  · exact ⟨k1, fun v => ⟨(p1 v).imp id (k1.kept _ _ _), Or.inl (congrFun e1 v)⟩⟩

end Clingcon
