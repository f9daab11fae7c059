import Verif.Proof.RunSound

/-! Properties of states that are kept while constraints are propagated. -/
set_option linter.unusedSimpArgs false
set_option linter.unusedVariables false
namespace Clingcon
open Spec VarState

/-- The parts of a constraint state common to all constraints. -/
def ccon (c : CState) : Bool × Constr × Bool × Nat × Int × Int := (c.alive, c.con, c.todo, c.inactive, c.lower, c.upper)

/-- The constraints and the lists of them. -/
def cview (b : Book) : List (Bool × Constr × Bool × Nat × Int × Int) × List Nat × List Nat × Option Int × Nat × List Lvl :=
  (b.cs.map ccon, b.todo, b.inactive, b.minimizeBound, b.minimizeLevel, b.levels)

/-- The same variables with smaller domains. -/
def Tight (F F' : List VarState × Book) : Prop := F'.1.length = F.1.length ∧ ∀ v, loF F v ≤ loF F' v ∧ upF F' v ≤ upF F v

theorem Tight.refl (F : List VarState × Book) : Tight F F := ⟨rfl, fun _ => ⟨Int.le_refl _, Int.le_refl _⟩⟩

theorem Tight.trans {F F1 F2 : List VarState × Book} (h : Tight F F1) (h1 : Tight F1 F2) : Tight F F2 :=
  ⟨h1.1.trans h.1, fun v => ⟨(h.2 v).1.trans (h1.2 v).1, (h1.2 v).2.trans (h.2 v).2⟩⟩

theorem Tight.of {F F' : List VarState × Book} (h : F'.1 = F.1) : Tight F F' := by
  refine ⟨by rw [h], fun v => ?_⟩
  unfold loF upF
  rw [h]
  exact ⟨Int.le_refl _, Int.le_refl _⟩

/-- The property only depends on the common parts of constraints, and bounds may become tighter. -/
structure Stab (P : List VarState × Book → Prop) : Prop where
  same : ∀ F F', cview F'.2 = cview F.2 → Tight F F' → P F → P F'

/-- Furthermore, a constraint may become inactive. -/
structure StabN (P : List VarState × Book → Prop) (n : Nat) : Prop extends Stab P where
  mark : ∀ F l, P F → P (F.1, F.2.markInactive l n)

variable {α γ : Type} {W W' : World} {P : List VarState × Book → Prop} {cc : CC} {n : Nat}

theorem map_ccon_eq {cs cs' : List CState} (hl : cs'.length = cs.length) (h : ∀ (n : Nat) c, cs[n]? = some c → ∃ c', cs'[n]? = some c' ∧ ccon c' = ccon c) :
    cs'.map ccon = cs.map ccon := by
  apply List.ext_getElem?
  intro n
  rw [List.getElem?_map, List.getElem?_map]
  cases hc : cs[n]? with
  | none =>
    have : cs'[n]? = none := by
      rw [List.getElem?_eq_none_iff] at hc ⊢; omega
    rw [this]
  | some c =>
    obtain ⟨c', h1, h2⟩ := h n c hc
    rw [h1]; simp [h2]

theorem map_ccon_set {cs : List CState} {n : Nat} {c c' : CState} (hc : cs[n]? = some c) (h : ccon c' = ccon c) : (cs.set n c').map ccon = cs.map ccon := by
  refine map_ccon_eq (by simp) (fun m d hd => ?_)
  by_cases hm : n = m
  · subst hm
    rw [hc] at hd; injection hd with hd; subst hd
    refine ⟨c', ?_, h⟩
    rw [List.getElem?_set_self (List.getElem?_eq_some_iff.mp hc).1]
  · exact ⟨d, by rw [List.getElem?_set_ne hm]; exact hd, rfl⟩

theorem cview_set {b : Book} {n : Nat} {c c' : CState} (hc : b.cs[n]? = some c) (h : ccon c' = ccon c) :
    cview { b with cs := b.cs.set n c' } = cview b := by
  unfold cview
  rw [map_ccon_set hc h]

theorem Stab.of (hs : Stab P) (e : cview W'.book = cview W.book) (hv : (frame W').1 = (frame W).1) (h : P (frame W)) : P (frame W') :=
  hs.same (frame W) (frame W') e (Tight.of hv) h

theorem keepS_setCS {f : CState → CState} {k : CState → SM γ} (hs : Stab P) (hf : ∀ c, ccon (f c) = ccon c) (hk : ∀ c, Keep P (k c)) :
    Keep P (getCS n >>= fun c => setCS n (f c) >>= fun _ => k c) := by
  refine ⟨fun W a W' hx h => ?_⟩
  obtain ⟨c, W1, h1, h2⟩ := SM.bind_ok hx
  obtain ⟨⟨hc, -⟩, rfl⟩ := getCS_iff.mp h1
  obtain ⟨_, W2, h3, h4⟩ := SM.bind_ok h2
  injection h3 with h3
  obtain ⟨-, rfl⟩ := Prod.mk.inj h3
  refine (hk c).keep _ _ _ h4 ?_
  exact hs.of (cview_set hc (hf c)) rfl h

theorem keepS_markInactiveS (hs : StabN P n) : Keep P (markInactiveS n) := by
  unfold markInactiveS
  refine Keep.bind (Keep.fr Fr.curLevel) (fun l => ⟨fun W u W' h hp => ?_⟩)
  rw [modify_iff] at h
  subst h
  exact hs.mark _ _ hp
macro_rules | `(tactic| keep_step) => `(tactic| with_reducible exact keepS_markInactiveS (by assumption))

theorem keepS_sumPropagate {ck t : Bool} {l r : Int} {es : List (Int × Nat)} (hs : StabN P n) : Keep P (sumPropagate cc n ck t l r es) := by
  unfold sumPropagate; keep_auto
macro_rules | `(tactic| keep_step) => `(tactic| with_reducible exact keepS_sumPropagate (by assumption))

theorem keepS_nonlinearPropagate {ca cb r : Int} {x y z : Nat} (hs : StabN P n) : Keep P (nonlinearPropagate cc n ca x y cb z r) := by
  unfold nonlinearPropagate; keep_auto
macro_rules | `(tactic| keep_step) => `(tactic| with_reducible exact keepS_nonlinearPropagate (by assumption))

theorem distinctUpdate_ccon {es : List (List (Int × Nat) × Int)} : ∀ {is : List Nat} {c c' : CState} {W W' : World},
    distinctUpdate es is c W = .ok (c', W') → ccon c' = ccon c
  | [], c, c', W, W', h => by
    unfold distinctUpdate at h
    obtain ⟨rfl, -⟩ := pure_iff.mp h
    rfl
  | i :: is, c, c', W, W', h => by
    unfold distinctUpdate at h
    cases he : es[i]? with
    | none => rw [he] at h; cases h
    | some e =>
    cases ho : c.assigned[i]? with
    | none => rw [he, ho] at h; cases h
    | some o =>
      rw [he, ho] at h
      obtain ⟨_, W1, _, h⟩ := SM.bind_ok h
      obtain ⟨_, W2, _, h⟩ := SM.bind_ok h
      obtain ⟨_, W3, _, h⟩ := SM.bind_ok h
      have := distinctUpdate_ccon h
      exact this

theorem keepS_distinctPropagate {l : Int} {es : List (List (Int × Nat) × Int)} (hs : Stab P) : Keep P (distinctPropagate cc n l es) := by
  unfold distinctPropagate
  refine ⟨fun W a W' hx h => ?_⟩
  obtain ⟨c, W1, h1, h2⟩ := SM.bind_ok hx
  obtain ⟨⟨hcs, hal⟩, rfl⟩ := getCS_iff.mp h1
  obtain ⟨c', W2, h3, h4⟩ := SM.bind_ok h2
  obtain ⟨_, W3, h5, h6⟩ := SM.bind_ok h4
  injection h5 with h5
  obtain ⟨-, rfl⟩ := Prod.mk.inj h5
  have hf := fr_distinctUpdate.fr _ _ _ h3
  have hb : W2.book = W1.book := congrArg Prod.snd hf
  refine Keep.keep (P := P) ?_ _ _ _ h6 ?_
  · have hfin : Keep P (getCS n >>= fun c => setCS n c.clearTodo >>= fun _ => (Pure.pure true : SM Bool)) :=
      keepS_setCS (f := fun c => c.clearTodo) hs (fun _ => rfl) (fun _ => Keep.fr Fr.pure)
    refine Keep.bind (Keep.fr fr_distinctTodo) (fun b => ?_)
    split
    · exact Keep.fr Fr.pure
    · refine Keep.bind (Keep.fr fr_distinctTodo) (fun b => ?_)
      split
      · exact Keep.fr Fr.pure
      · exact hfin
  · refine hs.of (W := W1) ?_ (show (frame W2).1 = (frame W1).1 from congrArg Prod.fst hf) h
    show cview { W2.book with cs := W2.book.cs.set n c' } = cview W1.book
    rw [hb]
    exact cview_set hcs (distinctUpdate_ccon h3)

theorem keepS_disjointPropagate {l : Int} (hs : Stab P) : Keep P (disjointPropagate cc n l) := by
  unfold disjointPropagate
  refine Keep.bind (Keep.fr Fr.getCS) (fun c => ?_)
  refine Keep.bind (Keep.fr fr_disjointLoad) (fun is => ?_)
  refine Keep.bind (Keep.fr fr_disjointRun) (fun p => ?_)
  refine keepS_setCS (f := fun c => { c with intervals := p.2, forceUpdate := false }) hs (fun _ => rfl) (fun c' => ?_)
  split
  · exact Keep.fr Fr.pure
  · refine Keep.bind (Keep.fr fr_disjointRun) (fun q => ?_)
    exact keepS_setCS (f := fun c => { c with intervals := q.2 }) hs (fun _ => rfl) (fun _ => Keep.fr Fr.pure)

theorem keepS_propagateCS {ck : Bool} (hs : StabN P n) : Keep P (propagateCS cc ck n) := by
  have h1 : ∀ l es, Keep P (distinctPropagate cc n l es) := fun l es => keepS_distinctPropagate hs.toStab
  have h2 : ∀ l, Keep P (disjointPropagate cc n l) := fun l => keepS_disjointPropagate hs.toStab
  unfold propagateCS
  refine Keep.bind (Keep.fr Fr.getCS) (fun c => ?_)
  split
  · exact keepS_sumPropagate hs
  · keep_auto
  · exact h1 _ _
  · exact keepS_nonlinearPropagate hs
  · exact h2 _

/-! ### Changes of bounds -/

theorem tight_lower {F : List VarState × Book} {v : Nat} {y y' : VarState} {b : Book} (hv : F.1[v]? = some y) (h1 : y.lower ≤ y'.lower) (h2 : y'.upper ≤ y.upper) :
    Tight F (F.1.set v y', b) := by
  have hl := (List.getElem?_eq_some_iff.mp hv).1
  refine ⟨List.length_set, fun w => ?_⟩
  unfold loF upF
  simp only
  by_cases hw : v = w
  · subst hw
    rw [List.getElem?_set_self hl, hv]
    exact ⟨h1, h2⟩
  · rw [List.getElem?_set_ne hw]
    exact ⟨Int.le_refl _, Int.le_refl _⟩

theorem keepS_updateUpperLit {l v : Nat} {lit value sl : Int} (hs : Stab P) : Keep P (updateUpperLit cc l v lit value sl) := by
  refine ⟨fun W a W' h ha => ?_⟩
  unfold updateUpperLit at h
  obtain ⟨y, W1, h1, h3⟩ := SM.bind_ok h
  obtain ⟨hv, rfl⟩ := getVar_iff.mp h1
  clear h
  rename' h3 => h
  split_ifs at h with hc
  · have : Keep P (do
        let l ← getLiteral cc v (y.lower - 1)
        whenS (← addClause cc [l, -lit]) (discard (ccPropagate cc))
        return false) := by keep_auto
    exact this.keep _ _ _ h ha
  · obtain ⟨_, W2, h2, h3⟩ := SM.bind_ok h
    clear h
    rename' h3 => h
    have h2 : P (frame W2) := by
      unfold whenS at h2
      split_ifs at h2 with hu
      · obtain ⟨y', hv', e⟩ := updateUpper_frame h2
        rw [hv] at hv'; injection hv' with hv'; subst hv'
        have hv' : (frame W1).1[v]? = some y.bounds := by simp [frame, List.getElem?_map, hv]
        refine hs.same _ _ ?_ ?_ ha
        · rw [e]; rfl
        · rw [e]
          refine tight_lower hv' (Int.le_refl _) ?_
          have : value < y.upper := by simpa using hu
          exact Int.le_of_lt this
      · obtain ⟨-, rfl⟩ := pure_iff.mp h2; exact ha
    refine Keep.keep (P := P) ?_ _ _ _ h h2
    keep_auto

theorem keepS_updateLowerLit {l v : Nat} {lit value sl : Int} (hs : Stab P) : Keep P (updateLowerLit cc l v lit value sl) := by
  refine ⟨fun W a W' h ha => ?_⟩
  unfold updateLowerLit at h
  obtain ⟨y, W1, h1, h3⟩ := SM.bind_ok h
  obtain ⟨hv, rfl⟩ := getVar_iff.mp h1
  clear h
  rename' h3 => h
  split_ifs at h with hc
  · refine Keep.keep (P := P) ?_ _ _ _ h ha
    keep_auto
  · obtain ⟨_, W2, h2, h3⟩ := SM.bind_ok h
    clear h
    rename' h3 => h
    have h2 : P (frame W2) := by
      unfold whenS at h2
      split_ifs at h2 with hu
      · obtain ⟨y', hv', e⟩ := updateLower_frame h2
        rw [hv] at hv'; injection hv' with hv'; subst hv'
        have hv' : (frame W1).1[v]? = some y.bounds := by simp [frame, List.getElem?_map, hv]
        refine hs.same _ _ ?_ ?_ ha
        · rw [e]; rfl
        · rw [e]
          refine tight_lower hv' ?_ (Int.le_refl _)
          have : y.lower < value + 1 := by simpa using hu
          exact Int.le_of_lt this
      · obtain ⟨-, rfl⟩ := pure_iff.mp h2; exact ha
    refine Keep.keep (P := P) ?_ _ _ _ h h2
    keep_auto
macro_rules | `(tactic| keep_step) => `(tactic| with_reducible exact keepS_updateUpperLit (by assumption))
macro_rules | `(tactic| keep_step) => `(tactic| with_reducible exact keepS_updateLowerLit (by assumption))

theorem keepS_propagateFacts {l : Nat} (hs : Stab P) : ∀ {fs : List (Int × Nat × Int × Int)}, Keep P (propagateFacts cc l fs)
  | [] => by unfold propagateFacts; keep_auto
  | (a, b, c, d) :: fs => by
    have ih := keepS_propagateFacts (l := l) hs (fs := fs)
    unfold propagateFacts; keep_auto
macro_rules | `(tactic| keep_step) => `(tactic| with_reducible exact keepS_propagateFacts (by assumption))

theorem keepS_updateDomain {lit : Int} (hs : Stab P) : Keep P (updateDomain cc lit) := by unfold updateDomain; keep_auto
macro_rules | `(tactic| keep_step) => `(tactic| with_reducible exact keepS_updateDomain (by assumption))
theorem keepS_integrateFacts (hs : Stab P) : Keep P (integrateFacts cc) := by unfold integrateFacts; keep_auto

end Clingcon
