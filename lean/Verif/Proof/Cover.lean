import Verif.Proof.Stable
import Verif.Proof.Inactive
import Verif.Spec.Search

/-! Violated linear constraints are not missed: states during a call. -/
set_option linter.unusedSimpArgs false
set_option linter.unusedVariables false
namespace Clingcon
open Spec VarState

variable {α γ : Type} {W W' : World} {cc : CC} {n : Nat} {F F' : List VarState × Book} {f : Bool} {g : Int → Prop} {T : List Nat}

/-- The sums of the constraint do not show that the constraint is violated. -/
def Low (f : Bool) (b : Book) (c : CState) : Prop :=
  match c.con with
  | .sum _ r _ => c.lower ≤ r
  | .minimize _ _ => f = true → ∀ v, b.minimizeBound = some v → c.lower ≤ v ∨ c.upper ≤ v
  | _ => True

/-- The constraint is satisfied for the given bounds or its literal is known to be false. -/
def asideC (g : Int → Prop) (lo up : Nat → Int) : Constr → Prop
  | .sum l r es => upSum lo up es ≤ r ∨ g l
  | .minimize _ _ => False
  | _ => True

/-- The constraints are the given ones, the given constraints are still inactive, and the bound of the objective is
the given one. -/
def Steady (K : List (Bool × Constr)) (I : List Nat) (M : Option Int × Nat) (F : List VarState × Book) : Prop :=
  F.2.cs.map acon = K ∧ I <+: F.2.inactive ∧ (F.2.minimizeBound, F.2.minimizeLevel) = M

/-- Marked constraints are in the lists. -/
def Marks (T : List Nat) (F : List VarState × Book) : Prop :=
  (∀ (n : Nat) c, F.2.cs[n]? = some c → c.todo = true → n ∈ T) ∧ ∀ (n : Nat) c, F.2.cs[n]? = some c → 0 < c.inactive → n ∈ F.2.inactive

/-- Constraints that are neither listed nor inactive are not violated. -/
def Rests (f : Bool) (T : List Nat) (F : List VarState × Book) : Prop :=
  ∀ (n : Nat) c, F.2.cs[n]? = some c → c.alive = true → n ∉ T → n ∉ F.2.inactive → Low f F.2 c

/-- Inactive constraints are satisfied or do not have to be. -/
def Out (g : Int → Prop) (X : Nat → Prop) (F : List VarState × Book) : Prop :=
  ∀ (n : Nat) c, F.2.cs[n]? = some c → c.alive = true → X n → n ∈ F.2.inactive → asideC g (loF F) (upF F) c.con

/-- No condition. -/
def allC : Nat → Prop := fun _ => True

/-- Nothing violated is missed. -/
def Cov (f : Bool) (g : Int → Prop) (F : List VarState × Book) : Prop := Rests f F.2.todo F ∧ Out g allC F

/-- The same for a single constraint. -/
def Asd (g : Int → Prop) (n : Nat) (F : List VarState × Book) : Prop :=
  ∀ c, F.2.cs[n]? = some c → c.alive = true → asideC g (loF F) (upF F) c.con

/-- The constraint is an objective and not inactive. -/
def NoMin (n : Nat) (F : List VarState × Book) : Prop :=
  (∀ c, F.2.cs[n]? = some c → ∃ a es, c.con = .minimize a es) ∧ n ∉ F.2.inactive

theorem cview_get {b b' : Book} (h : cview b' = cview b) {n : Nat} {c' : CState} (hc : b'.cs[n]? = some c') : ∃ c, b.cs[n]? = some c ∧ ccon c = ccon c' := by
  have h1 : b'.cs.map ccon = b.cs.map ccon := congrArg Prod.fst h
  have h2 : (b'.cs.map ccon)[n]? = some (ccon c') := by rw [List.getElem?_map, hc]; rfl
  rw [h1, List.getElem?_map] at h2
  cases hb : b.cs[n]? with
  | none => rw [hb] at h2; cases h2
  | some c => rw [hb] at h2; injection h2 with h2; exact ⟨c, rfl, h2⟩

theorem cview_parts {b b' : Book} (h : cview b' = cview b) : b'.inactive = b.inactive ∧ b'.minimizeBound = b.minimizeBound ∧ b'.minimizeLevel = b.minimizeLevel := by
  unfold cview at h
  simp only [Prod.mk.injEq] at h
  exact ⟨h.2.2.1, h.2.2.2.1, h.2.2.2.2.1⟩

theorem ccon_parts {c c' : CState} (h : ccon c = ccon c') : c'.alive = c.alive ∧ c'.con = c.con ∧ c'.todo = c.todo ∧ c'.inactive = c.inactive ∧
    c'.lower = c.lower ∧ c'.upper = c.upper := by
  unfold ccon at h
  simp only [Prod.mk.injEq] at h
  obtain ⟨h1, h2, h3, h4, h5, h6⟩ := h
  exact ⟨h1.symm, h2.symm, h3.symm, h4.symm, h5.symm, h6.symm⟩

theorem Low.congr {b b' : Book} {c c' : CState} (hm : b'.minimizeBound = b.minimizeBound) (h1 : c'.con = c.con) (h2 : c'.lower = c.lower) (h3 : c'.upper ≤ c.upper)
    (h : Low f b c) : Low f b' c' := by
  unfold Low at *
  rw [h1, h2, hm]
  split
  · next e => rw [e] at h; exact h
  · next e =>
    rw [e] at h
    intro hf v hv
    rcases h hf v hv with h | h
    · exact Or.inl h
    · exact Or.inr (h3.trans h)
  · trivial

theorem lowSum_mono {aL aU bL bU : Nat → Int} (h : ∀ v, aL v ≤ bL v ∧ bU v ≤ aU v) : ∀ {es : List (Int × Nat)}, lowSum aL aU es ≤ lowSum bL bU es
  | [] => Int.le_refl _
  | (co, v) :: es => by
    unfold lowSum
    have ih := lowSum_mono h (es := es)
    have h1 := (h v).1
    have h2 := (h v).2
    split_ifs with hc
    · have := Int.mul_le_mul_of_nonneg_left h1 (by omega : 0 ≤ co); omega
    · have := Int.mul_le_mul_of_nonpos_left (a := co) (by omega : co ≤ 0) h2; omega

theorem upSum_anti {aL aU bL bU : Nat → Int} (h : ∀ v, aL v ≤ bL v ∧ bU v ≤ aU v) {es : List (Int × Nat)} : upSum bL bU es ≤ upSum aL aU es := by
  unfold upSum
  exact lowSum_mono (fun v => ⟨(h v).2, (h v).1⟩)

theorem asideC.tight {con : Constr} (ht : Tight F F') (h : asideC g (loF F) (upF F) con) : asideC g (loF F') (upF F') con := by
  cases con with
  | sum l r es => exact Or.imp (fun h => (upSum_anti ht.2).trans h) id h
  | minimize a es => exact h
  | distinct l es => trivial
  | disjoint l es => trivial
  | nonlinear l ca x y cb z r => trivial

theorem asideC.learn {con : Constr} {lo up : Nat → Int} {g' : Int → Prop} (hg : ∀ l, g l → g' l) (h : asideC g lo up con) : asideC g' lo up con := by
  cases con with
  | sum l r es => exact Or.imp id (hg l) h
  | minimize a es => exact h
  | distinct l es => trivial
  | disjoint l es => trivial
  | nonlinear l ca x y cb z r => trivial

/-- Marking a constraint as inactive. -/
theorem markInactive_get {b : Book} {l n m : Nat} {c' : CState} (h : (b.markInactive l n).cs[m]? = some c') :
    ∃ c, b.cs[m]? = some c ∧ c'.alive = c.alive ∧ c'.con = c.con ∧ c'.todo = c.todo ∧ c'.lower = c.lower ∧ c'.upper = c.upper ∧
      (c'.inactive = c.inactive ∨ (m = n ∧ n ∈ (b.markInactive l n).inactive)) := by
  unfold Book.markInactive at h ⊢
  cases hc : b.cs[n]? with
  | none => rw [hc] at h; exact ⟨c', h, rfl, rfl, rfl, rfl, rfl, Or.inl rfl⟩
  | some c =>
    rw [hc] at h
    dsimp only at h ⊢
    split_ifs at h ⊢ with hr
    · by_cases hm : n = m
      · subst hm
        simp only [List.getElem?_set_self (List.getElem?_eq_some_iff.mp hc).1] at h
        injection h with h
        subst h
        exact ⟨c, hc, rfl, rfl, rfl, rfl, rfl, Or.inr ⟨rfl, by simp⟩⟩
      · simp only [List.getElem?_set_ne hm] at h
        exact ⟨c', h, rfl, rfl, rfl, rfl, rfl, Or.inl rfl⟩
    · exact ⟨c', h, rfl, rfl, rfl, rfl, rfl, Or.inl rfl⟩

theorem markInactive_rest {b : Book} {l n : Nat} : (b.markInactive l n).minimizeBound = b.minimizeBound ∧ (b.markInactive l n).minimizeLevel = b.minimizeLevel ∧
    (∀ m, m ∈ b.inactive → m ∈ (b.markInactive l n).inactive) ∧ (∀ m, m ∈ (b.markInactive l n).inactive → m ∈ b.inactive ∨ m = n) ∧
    b.inactive <+: (b.markInactive l n).inactive ∧ (b.markInactive l n).todo = b.todo := by
  unfold Book.markInactive
  cases hc : b.cs[n]? with
  | none => exact ⟨rfl, rfl, fun _ h => h, fun _ h => Or.inl h, List.prefix_refl _, rfl⟩
  | some c =>
    dsimp only
    split_ifs with hr
    · refine ⟨rfl, rfl, fun _ h => List.mem_append_left _ h, fun m h => ?_, List.prefix_append _ _, rfl⟩
      rcases List.mem_append.mp h with h | h
      · exact Or.inl h
      · exact Or.inr (List.mem_singleton.mp h)
    · exact ⟨rfl, rfl, fun _ h => h, fun _ h => Or.inl h, List.prefix_refl _, rfl⟩

theorem steady_stab {K : List (Bool × Constr)} {I : List Nat} {M : Option Int × Nat} : StabN (Steady K I M) n := by
  refine ⟨⟨fun F F' hc ht h => ?_⟩, fun F l h => ?_⟩
  · obtain ⟨h1, h2, h3⟩ := h
    obtain ⟨e1, e2, e3⟩ := cview_parts hc
    refine ⟨?_, by rw [e1]; exact h2, by rw [e2, e3]; exact h3⟩
    rw [← h1]
    have : ∀ cs : List CState, cs.map acon = (cs.map ccon).map (fun p => (p.1, p.2.1)) := by intro cs; rw [List.map_map]; rfl
    rw [this, this, show F'.2.cs.map ccon = F.2.cs.map ccon from congrArg Prod.fst hc]
  · obtain ⟨h1, h2, h3⟩ := h
    obtain ⟨e1, e2, -, -, e5, -⟩ := markInactive_rest (b := F.2) (l := l) (n := n)
    refine ⟨?_, h2.trans e5, by dsimp only; rw [e1, e2]; exact h3⟩
    rw [← h1]
    dsimp only
    unfold Book.markInactive
    cases hc : F.2.cs[n]? with
    | none => rfl
    | some c =>
      dsimp only
      split_ifs
      · exact map_acon_set hc rfl
      · rfl

theorem marks_stab : StabN (Marks T) n := by
  refine ⟨⟨fun F F' hc ht h => ?_⟩, fun F l h => ?_⟩
  · refine ⟨fun m c' h1 h2 => ?_, fun m c' h1 h2 => ?_⟩
    · obtain ⟨c, hc1, e⟩ := cview_get hc h1
      obtain ⟨-, -, e3, -⟩ := ccon_parts e
      exact h.1 m c hc1 (e3 ▸ h2)
    · obtain ⟨c, hc1, e⟩ := cview_get hc h1
      obtain ⟨-, -, -, e4, -⟩ := ccon_parts e
      rw [(cview_parts hc).1]
      exact h.2 m c hc1 (e4 ▸ h2)
  · obtain ⟨-, -, e3, -⟩ := markInactive_rest (b := F.2) (l := l) (n := n)
    refine ⟨fun m c' h1 h2 => ?_, fun m c' h1 h2 => ?_⟩
    · obtain ⟨c, hc, -, -, a, -⟩ := markInactive_get h1
      exact h.1 m c hc (a ▸ h2)
    · obtain ⟨c, hc, -, -, -, -, -, a⟩ := markInactive_get h1
      rcases a with a | ⟨rfl, a⟩
      · exact e3 m (h.2 m c hc (a ▸ h2))
      · exact a

theorem quiet_stab : StabN (Rests f T) n := by
  refine ⟨⟨fun F F' hc ht h => ?_⟩, fun F l h => ?_⟩
  · intro m c' h1 h2 h3 h4
    obtain ⟨c, hc1, e⟩ := cview_get hc h1
    obtain ⟨e1, e2, -, -, e5, e6⟩ := ccon_parts e
    obtain ⟨i1, i2, -⟩ := cview_parts hc
    exact (h m c hc1 (e1 ▸ h2) h3 (i1 ▸ h4)).congr i2 e2 e5 (Int.le_of_eq e6)
  · obtain ⟨e1, -, e3, -⟩ := markInactive_rest (b := F.2) (l := l) (n := n)
    intro m c' h1 h2 h3 h4
    obtain ⟨c, hc, a1, a2, -, a4, a5, -⟩ := markInactive_get h1
    exact (h m c hc (a1 ▸ h2) h3 (fun hm => h4 (e3 m hm))).congr e1 a2 a4 (Int.le_of_eq a5)

theorem out_stab {X : Nat → Prop} (hX : ¬ X n) : StabN (Out g X) n := by
  refine ⟨⟨fun F F' hc ht h => ?_⟩, fun F l h => ?_⟩
  · intro m c' h1 h2 h3 h4
    obtain ⟨c, hc1, e⟩ := cview_get hc h1
    obtain ⟨e1, e2, -, -, e5, e6⟩ := ccon_parts e
    rw [(cview_parts hc).1] at h4
    rw [e2]
    exact (h m c hc1 (e1 ▸ h2) h3 h4).tight ht
  · obtain ⟨-, -, -, e4, -⟩ := markInactive_rest (b := F.2) (l := l) (n := n)
    intro m c' h1 h2 h3 h4
    obtain ⟨c, hc, a1, a2, -⟩ := markInactive_get h1
    rw [a2]
    rcases e4 m h4 with h4 | rfl
    · exact h m c hc (a1 ▸ h2) h3 h4
    · exact absurd h3 hX

theorem out_stab' {X : Nat → Prop} : Stab (Out g X) :=
  ⟨fun F F' hc ht h m c' h1 h2 h3 h4 => by
    obtain ⟨c, hc1, e⟩ := cview_get hc h1
    obtain ⟨e1, e2, -, -, e5, e6⟩ := ccon_parts e
    rw [(cview_parts hc).1] at h4
    rw [e2]
    exact (h m c hc1 (e1 ▸ h2) h3 h4).tight ht⟩

theorem asd_stab {k : Nat} : StabN (Asd g k) n := by
  refine ⟨⟨fun F F' hc ht h => ?_⟩, fun F l h => ?_⟩
  · intro c' h1 h2
    obtain ⟨c, hc1, e⟩ := cview_get hc h1
    obtain ⟨e1, e2, -⟩ := ccon_parts e
    rw [e2]
    exact (h c hc1 (e1 ▸ h2)).tight ht
  · intro c' h1 h2
    obtain ⟨c, hc, a1, a2, -⟩ := markInactive_get h1
    rw [a2]
    exact h c hc (a1 ▸ h2)

theorem noMin_stab : StabN (NoMin n) n := by
  refine ⟨⟨fun F F' hc ht h => ?_⟩, fun F l h => ?_⟩
  · refine ⟨fun c' h1 => ?_, by rw [(cview_parts hc).1]; exact h.2⟩
    obtain ⟨c, hc1, e⟩ := cview_get hc h1
    rw [(ccon_parts e).2.1]
    exact h.1 c hc1
  · refine ⟨fun c' h1 => ?_, ?_⟩
    · obtain ⟨c, hc, a1, a2, -⟩ := markInactive_get h1
      rw [a2]
      exact h.1 c hc
    · dsimp only
      unfold Book.markInactive
      cases hc : F.2.cs[n]? with
      | none => exact h.2
      | some c =>
        obtain ⟨a, es, e⟩ := h.1 c hc
        have : c.removable = false := by unfold CState.removable; rw [e]
        dsimp only
        rw [this]
        simpa using h.2

/-! ### Delivery of changes of bounds -/

theorem markTodo_marks {b : Book} {n : Nat} {vs : List VarState} (hm : Marks b.todo (vs, b)) : Marks (b.markTodo n).todo (vs, b.markTodo n) := by
  unfold Book.markTodo
  cases hc : b.cs[n]? with
  | none => exact hm
  | some c =>
    dsimp only
    split_ifs with hi ht
    · exact hm
    · exact hm
    · have hl := (List.getElem?_eq_some_iff.mp hc).1
      refine ⟨fun m c' h1 h2 => ?_, fun m c' h1 h2 => ?_⟩
      · by_cases hmn : n = m
        · subst hmn; exact List.mem_append_right _ (List.mem_singleton.mpr rfl)
        · have h1 : (b.cs.set n { c with todo := true })[m]? = some c' := h1
          rw [List.getElem?_set_ne hmn] at h1
          exact List.mem_append_left _ (hm.1 m c' h1 h2)
      · have h1 : (b.cs.set n { c with todo := true })[m]? = some c' := h1
        by_cases hmn : n = m
        · subst hmn
          rw [List.getElem?_set_self hl] at h1
          injection h1 with h1
          subst h1
          exact hm.2 n c hc h2
        · rw [List.getElem?_set_ne hmn] at h1
          exact hm.2 m c' h1 h2

theorem markTodo_quiet {b : Book} {n : Nat} {vs : List VarState} (hm : Marks b.todo (vs, b)) (hq : Rests f (n :: b.todo) (vs, b)) :
    Rests f (b.markTodo n).todo (vs, b.markTodo n) := by
  unfold Book.markTodo
  cases hc : b.cs[n]? with
  | none =>
    refine fun m c h1 h2 h3 h4 => hq m c h1 h2 ?_ h4
    intro hmem
    rcases List.mem_cons.mp hmem with rfl | h
    · have h1 : b.cs[m]? = some c := h1
      rw [hc] at h1; cases h1
    · exact h3 h
  | some c =>
    dsimp only
    split_ifs with hi ht
    · refine fun m c' h1 h2 h3 h4 => hq m c' h1 h2 ?_ h4
      intro hmem
      rcases List.mem_cons.mp hmem with rfl | h
      · refine h4 (hm.2 m c hc ?_)
        unfold CState.markedInactive at hi
        simpa using hi
      · exact h3 h
    · refine fun m c' h1 h2 h3 h4 => hq m c' h1 h2 ?_ h4
      intro hmem
      rcases List.mem_cons.mp hmem with rfl | h
      · exact h3 (hm.1 m c hc ht)
      · exact h3 h
    · refine fun m c' h1 h2 h3 h4 => ?_
      by_cases hmn : n = m
      · subst hmn; exact absurd (List.mem_append_right _ (List.mem_singleton.mpr rfl)) h3
      · have h1 : (b.cs.set n { c with todo := true })[m]? = some c' := h1
        rw [List.getElem?_set_ne hmn] at h1
        exact (hq m c' h1 h2 (fun hmem => by
          rcases List.mem_cons.mp hmem with h | h
          · exact hmn h.symm
          · exact h3 (List.mem_append_left _ h)) h4).congr rfl rfl rfl (Int.le_refl _)

theorem Rests.weaken {T' : List Nat} (h : Rests f T F) (ht : ∀ n ∈ T, n ∈ T') : Rests f T' F :=
  fun n c h1 h2 h3 h4 => h n c h1 h2 (fun hn => h3 (ht n hn)) h4

theorem markTodos_cov {vs : List VarState} : ∀ {ns : List Nat} {b : Book}, Marks b.todo (vs, b) →
    Marks (ns.foldl Book.markTodo b).todo (vs, ns.foldl Book.markTodo b) ∧
      (Rests f b.todo (vs, b) → Rests f (ns.foldl Book.markTodo b).todo (vs, ns.foldl Book.markTodo b))
  | [], b, hm => ⟨hm, id⟩
  | n :: ns, b, hm => by
    obtain ⟨h1, h2⟩ := markTodos_cov (ns := ns) (b := b.markTodo n) (markTodo_marks hm)
    exact ⟨h1, fun hq => h2 (markTodo_quiet hm (hq.weaken (fun k hk => List.mem_cons_of_mem _ hk)))⟩

theorem update_parts {c : CState} {i d : Int} {r : Bool × CState} (h : c.update i d = .ok r) :
    r.2.todo = c.todo ∧ r.2.inactive = c.inactive ∧ (r.1 = false → r.2.lower = c.lower ∧ r.2.upper ≤ c.upper) := by
  unfold CState.update at h
  have hs : ∀ {r : Bool × CState}, c.updateSum i d = .ok r → r.2.todo = c.todo ∧ r.2.inactive = c.inactive ∧ (r.1 = false → r.2.lower = c.lower ∧ r.2.upper ≤ c.upper) := by
    intro r h
    unfold CState.updateSum at h
    split at h
    · cases h
    · split at h
      · injection h with h; subst h
        refine ⟨rfl, rfl, fun _ => ⟨rfl, ?_⟩⟩
        dsimp only
        omega
      · injection h with h; subst h
        exact ⟨rfl, rfl, fun h => by cases h⟩
  split at h
  · exact hs h
  · exact hs h
  · injection h with h; subst h
    unfold CState.markTodoElem CState.markDirty
    refine ⟨?_, ?_, fun h => by cases h⟩ <;> split_ifs <;> rfl
  · injection h with h; subst h; exact ⟨rfl, rfl, fun h => by cases h⟩
  · injection h with h; subst h; exact ⟨rfl, rfl, fun h => by cases h⟩

theorem updateWatches_cov {vs : List VarState} {level var : Nat} {d : Int} : ∀ {ws : List (Int × Nat)} {b : Book} {p : List (Int × Nat) × Book},
    Book.updateWatches level var d ws b = .ok p → Marks b.todo (vs, b) → Marks p.2.todo (vs, p.2) ∧ (Rests f b.todo (vs, b) → Rests f p.2.todo (vs, p.2))
  | [], b, p, h, hm => by
    injection h with h; subst h
    exact ⟨hm, id⟩
  | (i, n) :: ws, b, p, h, hm => by
    unfold Book.updateWatches at h
    cases hc : b.cs[n]? with
    | none => rw [hc] at h; cases h
    | some c =>
      rw [hc] at h
      dsimp only at h
      split at h
      · obtain ⟨x1, x2⟩ := updateWatches_cov (b := { b with removed := b.removed ++ [(var, i, n)] }) h hm
        exact ⟨x1, fun hq => x2 hq⟩
      · cases hu : c.update i d with
        | error e => rw [hu] at h; cases h
        | ok r =>
          rw [hu] at h
          have hl := (List.getElem?_eq_some_iff.mp hc).1
          obtain ⟨u1, u2, u3⟩ := update_parts hu
          obtain ⟨a1, a2⟩ := Prod.mk.inj (show (r.2.alive, r.2.con) = (c.alive, c.con) from update_acon hu)
          have m1 : Marks b.todo (vs, { b with cs := b.cs.set n r.2 }) := by
            refine ⟨fun m c' h1 h2 => ?_, fun m c' h1 h2 => ?_⟩ <;>
            · have h1 : (b.cs.set n r.2)[m]? = some c' := h1
              by_cases hmn : n = m
              · subst hmn
                rw [List.getElem?_set_self hl] at h1
                injection h1 with h1
                subst h1
                first
                | exact hm.1 n c hc (u1 ▸ h2)
                | exact hm.2 n c hc (u2 ▸ h2)
              · rw [List.getElem?_set_ne hmn] at h1
                first
                | exact hm.1 m c' h1 h2
                | exact hm.2 m c' h1 h2
          have q1 : Rests f b.todo (vs, b) → Rests f (n :: b.todo) (vs, { b with cs := b.cs.set n r.2 }) := by
            intro hq m c' h1 h2 h3 h4
            have h1 : (b.cs.set n r.2)[m]? = some c' := h1
            by_cases hmn : n = m
            · subst hmn; exact absurd (List.mem_cons_self ..) h3
            · rw [List.getElem?_set_ne hmn] at h1
              exact (hq m c' h1 h2 (fun hmem => h3 (List.mem_cons_of_mem _ hmem)) h4).congr rfl rfl rfl (Int.le_refl _)
          simp only [bind, Except.bind] at h
          split at h
          · cases h
          · next q hx =>
            simp only [pure, Except.pure, Except.ok.injEq] at h
            subst h
            dsimp only
            split at hx
            · obtain ⟨x1, x2⟩ := updateWatches_cov hx (markTodo_marks (b := { b with cs := b.cs.set n r.2 }) m1)
              exact ⟨x1, fun hq => x2 (markTodo_quiet (b := { b with cs := b.cs.set n r.2 }) m1 (q1 hq))⟩
            · next hr =>
              have hr : r.1 = false := by simpa using hr
              obtain ⟨x1, x2⟩ := updateWatches_cov hx m1
              refine ⟨x1, fun hq => x2 (fun m c' h1 h2 h3 h4 => ?_)⟩
              have h1 : (b.cs.set n r.2)[m]? = some c' := h1
              by_cases hmn : n = m
              · subst hmn
                rw [List.getElem?_set_self hl] at h1
                injection h1 with h1
                subst h1
                exact (hq n c hc (a1 ▸ h2) h3 h4).congr rfl a2 (u3 hr).1 (u3 hr).2
              · rw [List.getElem?_set_ne hmn] at h1
                exact (hq m c' h1 h2 h3 h4).congr rfl rfl rfl (Int.le_refl _)

theorem updateConstraints_cov {vs : List VarState} {level var : Nat} {d : Int} {b b' : Book} (h : Book.updateConstraints level var d b = .ok b')
    (hm : Marks b.todo (vs, b)) : Marks b'.todo (vs, b') ∧ (Rests f b.todo (vs, b) → Rests f b'.todo (vs, b')) := by
  unfold Book.updateConstraints at h
  cases hw : b.watches[var]? with
  | none => rw [hw] at h; cases h
  | some ws =>
    rw [hw] at h
    dsimp only at h
    cases hu : Book.updateWatches level var d ws b with
    | error e => rw [hu] at h; cases h
    | ok p =>
      rw [hu] at h
      simp only [bind, Except.bind, pure, Except.pure, Except.ok.injEq] at h
      subst h
      exact updateWatches_cov hu hm

theorem updateUppers_cov {lv : List VarState} {level : Nat} : ∀ {vs : List Nat} {b b' : Book}, Book.updateUppers level vs b = .ok b' →
    Marks b.todo (lv, b) → Marks b'.todo (lv, b') ∧ (Rests f b.todo (lv, b) → Rests f b'.todo (lv, b'))
  | [], b, b', h, hm => by injection h with h; subst h; exact ⟨hm, id⟩
  | v :: vs, b, b', h, hm => by
    unfold Book.updateUppers at h
    cases hb : Book.updateConstraints level v (b.udiff.getD v 0) b with
    | error e => rw [hb] at h; cases h
    | ok b1 =>
      rw [hb] at h
      obtain ⟨h1, h2⟩ := updateConstraints_cov (f := f) hb hm
      obtain ⟨h3, h4⟩ := updateUppers_cov (b := { b1 with udiff := b1.udiff.set v 0 }) h h1
      exact ⟨h3, fun hq => h4 (h2 hq)⟩

theorem updateLowers_cov {lv : List VarState} {level : Nat} : ∀ {vs : List Nat} {b b' : Book}, Book.updateLowers level vs b = .ok b' →
    Marks b.todo (lv, b) → Marks b'.todo (lv, b') ∧ (Rests f b.todo (lv, b) → Rests f b'.todo (lv, b'))
  | [], b, b', h, hm => by injection h with h; subst h; exact ⟨hm, id⟩
  | v :: vs, b, b', h, hm => by
    unfold Book.updateLowers at h
    cases hb : Book.updateConstraints level v (b.ldiff.getD v 0) b with
    | error e => rw [hb] at h; cases h
    | ok b1 =>
      rw [hb] at h
      obtain ⟨h1, h2⟩ := updateConstraints_cov (f := f) hb hm
      obtain ⟨h3, h4⟩ := updateLowers_cov (b := { b1 with ldiff := b1.ldiff.set v 0 }) h h1
      exact ⟨h3, fun hq => h4 (h2 hq)⟩

theorem Out.view {X : Nat → Prop} (h : Out g X F) (hv : F'.1 = F.1) (ha : aview F'.2 = aview F.2) : Out g X F' := by
  intro m c' h1 h2 h3 h4
  have e1 : F'.2.cs.map acon = F.2.cs.map acon := congrArg Prod.fst ha
  have e2 : F'.2.inactive = F.2.inactive := congrArg Prod.snd ha
  have h5 : (F'.2.cs.map acon)[m]? = some (acon c') := by rw [List.getElem?_map, h1]; rfl
  rw [e1, List.getElem?_map] at h5
  cases hc : F.2.cs[m]? with
  | none => rw [hc] at h5; cases h5
  | some c =>
    rw [hc] at h5
    simp [acon] at h5
    rw [← h5.2]
    have e3 : loF F' = loF F := by unfold loF; rw [hv]
    have e4 : upF F' = upF F := by unfold upF; rw [hv]
    rw [e3, e4]
    exact h m c hc (h5.1.trans h2) h3 (e2 ▸ h4)

theorem deliver_parts {level : Nat} {u : Unit} (h : deliver level W = .ok (u, W')) : ∃ b1 b2, Book.updateUppers level W.book.inUdiff W.book = .ok b1 ∧
    Book.updateLowers level b1.inLdiff b1 = .ok b2 ∧ W' = { W with book := b2 } := by
  unfold deliver at h
  obtain ⟨W1, W2, h1, h2⟩ := SM.bind_ok h
  obtain ⟨rfl, rfl⟩ := get_iff.mp h1
  obtain ⟨b1, W3, h3, h4⟩ := SM.bind_ok h2
  obtain ⟨h3, rfl⟩ := liftRes_iff.mp h3
  obtain ⟨b2, W4, h5, h6⟩ := SM.bind_ok h4
  obtain ⟨g5, rfl⟩ := liftRes_iff.mp h5
  rw [modify_iff] at h6
  subst h6
  exact ⟨b1, b2, h3, g5, rfl⟩

theorem deliver_cov {level : Nat} {u : Unit} (h : deliver level W = .ok (u, W')) (hm : Marks W.book.todo (frame W)) :
    Marks W'.book.todo (frame W') ∧ (Cov f g (frame W) → Cov f g (frame W')) := by
  obtain ⟨b1, b2, h1, h2, rfl⟩ := deliver_parts h
  obtain ⟨x1, x2⟩ := updateUppers_cov (f := f) (lv := (frame W).1) h1 hm
  obtain ⟨y1, y2⟩ := updateLowers_cov (f := f) (lv := (frame W).1) h2 x1
  exact ⟨y1, fun hc => ⟨y2 (x2 hc.1), hc.2.view rfl ((updateLowers_aview h2).trans (updateUppers_aview h1))⟩⟩

end Clingcon
