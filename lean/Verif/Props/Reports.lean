import Verif.Props.RunSound

/-! C61: bounds taken over from another solver; C62: reports of bounds of the objective. -/
set_option linter.unusedVariables false
namespace Clingcon.Props
open Clingcon Spec

variable {β : Nat → Bool} {σ : Nat → Int} {cc : CC} {W W' : World}

/-! ### C61 -/

theorem takeUpper_enf {v : Nat} {o : VarState} (tt : litTrue β 1) (h : takeUpper cc v o W = .ok (true, W')) (hi : Inv β σ W) (hb : σ v ≤ upF (frame W) v)
    (ha : Asm β σ true W') : Inv β σ W' ∧ σ v ≤ o.upper := by
  unfold takeUpper at h
  obtain ⟨vs, W1, h1, h2⟩ := SM.bind_ok h
  obtain ⟨hv, rfl⟩ := getVar_iff.mp h1
  have hup : upF (frame W1) v = vs.upper := by simp [upF, frame, hv]; rfl
  split at h2
  · obtain ⟨l, W2, h3, h4⟩ := SM.bind_ok h2
    obtain ⟨hb', rfl⟩ := addClause_iff.mp h4
    have t := tr_updateLiteralE (σ := σ) (F := frame W1) tt _ _ _ h3
    have hg : Grow true W2 { W2 with log := .clause [l] :: W2.log } := Grow.ev rfl rfl
    obtain ⟨hI, hl0, hl⟩ := t.2 ⟨hi, rfl⟩ (hg.asm ha)
    have hc : evHolds β (.clause [l]) := (ha.2 rfl).1 _ (List.mem_cons_self ..)
    obtain ⟨x, hx, hxt⟩ := hc
    rw [List.mem_singleton] at hx
    subst hx
    exact ⟨hI.1.log ⟨x, by simp, hxt⟩, hl.mp hxt⟩
  · obtain ⟨-, rfl⟩ := pure_iff.mp h2
    exact ⟨hi, by omega⟩

theorem takeLower_enf {v : Nat} {o : VarState} (tt : litTrue β 1) (h : takeLower cc v o W = .ok (true, W')) (hi : Inv β σ W) (hb : loF (frame W) v ≤ σ v)
    (ha : Asm β σ true W') : Inv β σ W' ∧ o.lower ≤ σ v := by
  unfold takeLower at h
  obtain ⟨vs, W1, h1, h2⟩ := SM.bind_ok h
  obtain ⟨hv, rfl⟩ := getVar_iff.mp h1
  have hlo : loF (frame W1) v = vs.lower := by simp [loF, frame, hv]; rfl
  split at h2
  · obtain ⟨l, W2, h3, h4⟩ := SM.bind_ok h2
    obtain ⟨hb', rfl⟩ := addClause_iff.mp h4
    have t := tr_updateLiteralE (σ := σ) (F := frame W1) tt _ _ _ h3
    have hg : Grow true W2 { W2 with log := .clause [-l] :: W2.log } := Grow.ev rfl rfl
    obtain ⟨hI, hl0, hl⟩ := t.2 ⟨hi, rfl⟩ (hg.asm ha)
    have hc : evHolds β (.clause [-l]) := (ha.2 rfl).1 _ (List.mem_cons_self ..)
    obtain ⟨x, hx, hxt⟩ := hc
    rw [List.mem_singleton] at hx
    subst hx
    refine ⟨hI.1.log ⟨-l, by simp, hxt⟩, ?_⟩
    have := (litTrue_neg hl0).mp hxt
    rw [hl] at this
    omega
  · obtain ⟨-, rfl⟩ := pure_iff.mp h2
    exact ⟨hi, by omega⟩

theorem takeBounds_enf (tt : litTrue β 1) : ∀ {os : List VarState} {v : Nat} {W W' : World}, takeBounds cc v os W = .ok (true, W') → Inv β σ W →
    (∀ w, v ≤ w → w < v + os.length → loF (frame W) w ≤ σ w ∧ σ w ≤ upF (frame W) w) → Asm β σ true W' →
    ∀ (i : Nat) o, os[i]? = some o → o.lower ≤ σ (v + i) ∧ σ (v + i) ≤ o.upper
  | [], v, W, W', h, hi, hb, ha, i, o, ho => by cases ho
  | o :: os, v, W, W', h, hi, hb, ha, i, o', ho => by
    unfold takeBounds at h
    obtain ⟨b1, W1, h1, h2⟩ := SM.bind_ok h
    cases b1 with
    | false => obtain ⟨hx, -⟩ := pure_iff.mp h2; cases hx
    | true =>
    obtain ⟨b2, W2, h3, h4⟩ := SM.bind_ok h2
    cases b2 with
    | false => obtain ⟨hx, -⟩ := pure_iff.mp h4; cases hx
    | true =>
    have h4 : takeBounds cc (v + 1) os W2 = .ok (true, W') := h4
    have g4 : Grow true W2 W' := ext_takeBounds.ext _ _ _ h4
    have g3 : Grow true W1 W2 := ext_takeLower.ext _ _ _ h3
    have a2 := g4.asm ha
    have a1 := g3.asm a2
    have f1 : frame W1 = frame W := Fr.fr (by unfold takeUpper; fr_auto) _ _ _ h1
    have f2 : frame W2 = frame W1 := Fr.fr (by unfold takeLower; fr_auto) _ _ _ h3
    have hb0 := hb v (Nat.le_refl _) (by simp)
    obtain ⟨i1, e1⟩ := takeUpper_enf tt h1 hi hb0.2 a1
    obtain ⟨i2, e2⟩ := takeLower_enf tt h3 i1 (by rw [f1]; exact hb0.1) a2
    cases i with
    | zero =>
      injection ho with ho
      subst ho
      exact ⟨e2, e1⟩
    | succ i =>
      have := takeBounds_enf tt h4 i2 (fun w h1 h2 => by rw [f2, f1]; exact hb w (by omega) (by simp; omega)) ha i o' (by simpa using ho)
      rwa [show v + 1 + i = v + (i + 1) by omega] at this

/-- **C61** The clauses and facts recorded when bounds of another solver are taken over imply these bounds: if everything posted holds and
pending facts are true, then all values within the bounds of this solver are within the bounds of the other one. -/
theorem C61_enforced {os : List VarState} (tt : litTrue β 1) (hi : Inv β σ W) (h : takeBounds cc 0 os W = .ok (true, W'))
    (hb : ∀ v < os.length, lowerOf W v ≤ σ v ∧ σ v ≤ upperOf W v) (hr : Respects β σ W'.log) (hp : AllHold β W'.log) (hf : FactsHold σ W') :
    ∀ v o, os[v]? = some o → o.lower ≤ σ v ∧ σ v ≤ o.upper := by
  intro v o ho
  have := takeBounds_enf tt h hi (fun w _ hw => by rw [← lowerOf_eq, ← upperOf_eq]; exact hb w (by simpa using hw)) ⟨hr, fun _ => ⟨hp, hf⟩⟩ v o ho
  simpa using this

/-- **C61** Conversely, no assignment within the bounds of the other solver is excluded: everything posted holds and recorded facts are true. -/
theorem C61_exact {os : List VarState} {r : Bool} (tt : litTrue β 1) (hi : Inv β σ W) (h : takeBounds cc 0 os W = .ok (r, W'))
    (hb : ∀ v o, os[v]? = some o → o.lower ≤ σ v ∧ σ v ≤ o.upper) (hr : Respects β σ W'.log) : AllHold β W'.log ∧ FactsHold σ W' := by
  have := ((tr_takeBounds tt (v := 0) (fun i o h => by simpa using hb i o h)) W r W' h).2 hi ⟨hr, by simp⟩
  exact ⟨this.good.posted, this.good.facts⟩

/-- The bounds `[3, 7]` are taken over for a variable with domain `[0, 10]` and order literals for `x ≤ 5`, `x ≤ 2`, and `x ≤ 7`, and
the bounds `[3, 9]` for a second variable without order literals. -/
def takenStart : World := (tryRun [.addVar 0 10, .addVar 0 10, .literal idle 0 5, .literal idle 0 2, .literal idle 0 7] (World.init 2)).getD (World.init 2)
def takenFrom : List VarState := [{ lower := 3, upper := 7 }, { lower := 3, upper := 9 }]
def takenEnd : World := match takeBounds idle 0 takenFrom takenStart with | .ok (_, W) => W | .error _ => takenStart

theorem taken_ok : takeBounds idle 0 takenFrom takenStart = .ok (true, takenEnd) := by
  have h : (match takeBounds idle 0 takenFrom takenStart with | .ok (b, _) => b | .error _ => false) = true := by decide +kernel
  unfold takenEnd
  cases hx : takeBounds idle 0 takenFrom takenStart with
  | error e => rw [hx] at h; cases h
  | ok p => obtain ⟨b, W⟩ := p; rw [hx] at h; dsimp only at h ⊢; rw [h]

example : litTrue (fun a => decide (a ≤ 3)) 1 ∧ Inv (fun a => decide (a ≤ 3)) (fun _ => 6) takenStart ∧
    takeBounds idle 0 takenFrom takenStart = .ok (true, takenEnd) ∧ (∀ v < takenFrom.length, lowerOf takenStart v ≤ 6 ∧ (6 : Int) ≤ upperOf takenStart v) ∧
    Respects (fun a => decide (a ≤ 3)) (fun _ => 6) takenEnd.log ∧ AllHold (fun a => decide (a ≤ 3)) takenEnd.log ∧ FactsHold (fun _ => 6) takenEnd ∧
    boundsOf takenStart = [(0, 10), (0, 10)] ∧ takenEnd.log.take 4 = [.clause [1], .clause [1], .clause [3], .clause [-4]] ∧ takenEnd.factmap.length = 2 :=
  ⟨litB_iff.mp (by decide), inv_of (by decide +kernel), taken_ok, by decide +kernel, respects_of (by decide +kernel), allHold_of (by decide +kernel),
    facts_of (by decide +kernel), by decide +kernel, by decide +kernel, by decide +kernel⟩

/-! ### C62 -/

/-- Reports of bounds one after the other. -/
def allReports (n : Nat) (rs : List (Nat × Int)) (b : Book) : Book := rs.foldl (fun b r => b.updateMinimize n r.1 r.2) b

theorem markTodo_min {b : Book} {n : Nat} : (b.markTodo n).minimizeBound = b.minimizeBound ∧ (b.markTodo n).minimizeLevel = b.minimizeLevel := by
  unfold Book.markTodo
  split
  · exact ⟨rfl, rfl⟩
  · split
    · exact ⟨rfl, rfl⟩
    · split <;> exact ⟨rfl, rfl⟩

/-- **C62** After a sequence of allReports, starting without a bound, the bound is the least one reported, and the level is the
least one among the first report of this bound and all later allReports. -/
theorem C62_reports {n : Nat} {rs : List (Nat × Int)} {b : Book} (h0 : b.minimizeBound = none) (hrs : rs ≠ []) :
    ∃ before level bound later, rs = before ++ (level, bound) :: later ∧ (∀ r ∈ before, bound < r.2) ∧ (∀ r ∈ later, bound ≤ r.2) ∧
      (allReports n rs b).minimizeBound = some bound ∧ (allReports n rs b).minimizeLevel ∈ level :: later.map (·.1) ∧
      ∀ x ∈ level :: later.map (·.1), (allReports n rs b).minimizeLevel ≤ x := by
  induction rs using List.reverseRecOn with
  | nil => exact absurd rfl hrs
  | append_singleton rs r ih =>
    obtain ⟨l, x⟩ := r
    have step : allReports n (rs ++ [(l, x)]) b = (allReports n rs b).updateMinimize n l x := by unfold allReports; rw [List.foldl_append]; rfl
    rw [step]
    by_cases hnil : rs = []
    · subst hnil
      refine ⟨[], l, x, [], rfl, by simp, by simp, ?_⟩
      have : (allReports n [] b).minimizeBound = none := h0
      unfold Book.updateMinimize
      rw [this]
      simp only [if_true]
      rw [markTodo_min.1, markTodo_min.2]
      simp
    · obtain ⟨bf, lv, bd, lt, e1, e2, e3, e4, e5, e6⟩ := ih hnil
      unfold Book.updateMinimize
      rw [e4]
      by_cases hx : x < bd
      · refine ⟨rs, l, x, [], rfl, ?_, by simp, ?_⟩
        · intro r hr
          rw [e1] at hr
          rcases List.mem_append.mp hr with hr | hr
          · exact hx.trans (e2 r hr)
          · rcases List.mem_cons.mp hr with rfl | hr
            · exact hx
            · exact lt_of_lt_of_le hx (e3 r hr)
        · simp only [hx, decide_true, if_true]
          rw [markTodo_min.1, markTodo_min.2]
          simp
      · refine ⟨bf, lv, bd, lt ++ [(l, x)], by rw [e1]; simp, e2, ?_, ?_⟩
        · intro r hr
          rcases List.mem_append.mp hr with hr | hr
          · exact e3 r hr
          · rw [List.mem_singleton] at hr; subst hr; exact not_lt.mp hx
        · simp only [hx, decide_false, Bool.false_eq_true, if_false]
          split_ifs with hl
          · rw [markTodo_min.1, markTodo_min.2]
            refine ⟨rfl, by simp, fun y hy => ?_⟩
            show l ≤ y
            simp only [List.map_append, List.map_cons, List.map_nil, ← List.cons_append] at hy
            rcases List.mem_append.mp hy with hy | hy
            · have := e6 y hy; omega
            · rw [List.mem_singleton] at hy; omega
          · refine ⟨e4, ?_, fun y hy => ?_⟩
            · rw [List.map_append, ← List.cons_append]; exact List.mem_append_left _ e5
            · simp only [List.map_append, List.map_cons, List.map_nil, ← List.cons_append] at hy
              rcases List.mem_append.mp hy with hy | hy
              · exact e6 y hy
              · rw [List.mem_singleton] at hy; omega

/-- **C62** If a report changes the bound or the level, then the objective is queued; otherwise, nothing changes. -/
theorem C62_queued {n l : Nat} {x : Int} {b : Book} {c : CState} (hc : b.cs[n]? = some c) (ha : c.markedInactive = false) (ht : c.todo = true → n ∈ b.todo) :
    ((b.updateMinimize n l x).minimizeBound ≠ b.minimizeBound ∨ (b.updateMinimize n l x).minimizeLevel ≠ b.minimizeLevel → n ∈ (b.updateMinimize n l x).todo) ∧
    ((b.updateMinimize n l x).minimizeBound = b.minimizeBound ∧ (b.updateMinimize n l x).minimizeLevel = b.minimizeLevel → b.updateMinimize n l x = b) := by
  have key : ∀ b' : Book, b'.cs = b.cs → b'.todo = b.todo → n ∈ (b'.markTodo n).todo := by
    intro b' h1 h2
    unfold Book.markTodo
    rw [h1, hc]
    dsimp only
    rw [ha]
    simp only [Bool.false_eq_true, if_false]
    split
    · rw [h2]; exact ht ‹_›
    · simp
  unfold Book.updateMinimize
  cases hb : b.minimizeBound with
  | none =>
    simp only [if_true]
    refine ⟨fun _ => key _ rfl rfl, fun h => ?_⟩
    rw [markTodo_min.1] at h
    cases h.1
  | some y =>
    by_cases hx : x < y
    · simp only [hx, decide_true, if_true]
      refine ⟨fun _ => key _ rfl rfl, fun h => ?_⟩
      rw [markTodo_min.1] at h
      have := h.1
      simp at this
      omega
    · simp only [hx, decide_false, Bool.false_eq_true, if_false]
      split_ifs with hl
      · refine ⟨fun _ => key _ rfl rfl, fun h => ?_⟩
        rw [markTodo_min.2] at h
        have : l = b.minimizeLevel := h.2
        omega
      · exact ⟨fun h => absurd hb (h.resolve_right (fun h => h rfl)), fun _ => rfl⟩

/-- Three allReports: the second one is better, the third one has the same bound at a lower level. -/
example : (allReports 0 [(1, 5), (3, 2), (2, 2)] (World.init 2).book).minimizeBound = some 2 ∧ (allReports 0 [(1, 5), (3, 2), (2, 2)] (World.init 2).book).minimizeLevel = 2 ∧
    (World.init 2).book.minimizeBound = none := by decide +kernel

/-- A state with an objective. -/
def objective : World := (tryRun [.addVar 0 10, .addVar 0 10, .addConstraint (.minimize 0 [(1, 0), (1, 1)])] (World.init 2)).getD (World.init 2)

example : ∃ c, objective.book.cs[0]? = some c ∧ c.markedInactive = false ∧ (c.todo = true → 0 ∈ objective.book.todo) ∧
    (objective.book.updateMinimize 0 1 5).minimizeBound ≠ objective.book.minimizeBound := by
  refine ⟨objective.book.cs[0]?.getD { con := .disjoint 0 [] }, ?_, ?_, ?_, ?_⟩ <;> decide +kernel

end Clingcon.Props
