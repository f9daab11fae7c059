import Verif.Proof.View
import Verif.Proof.Frame

/-! The invariant of the bookkeeping for levels and constraints. -/
set_option linter.unusedSimpArgs false
namespace Clingcon
open Spec VarState

/-- Bounds with levels in the opposite order. -/
def negStk (s : List (Nat × Int)) : List (Nat × Int) := s.map (fun p => (p.1, -p.2))

/-- The stack of lower bounds of a variable. -/
def lstF (F : List VarState × Book) (v : Nat) : List (Nat × Int) := match F.1[v]? with | some vs => vs.lowerStack | none => []
/-- The stack of upper bounds of a variable, negated. -/
def ustF (F : List VarState × Book) (v : Nat) : List (Nat × Int) := match F.1[v]? with | some vs => negStk vs.upperStack | none => []
/-- The change of the lower bound the constraints have not been informed about. -/
def ldF (F : List VarState × Book) (v : Nat) : Int := F.2.ldiff.getD v 0
/-- The change of the upper bound the constraints have not been informed about. -/
def udF (F : List VarState × Book) (v : Nat) : Int := F.2.udiff.getD v 0
/-- The lower bound before a level has been opened. -/
def alF (F : List VarState × Book) (k v : Nat) : Int := atLevel (lstF F v) (loF F v) k
/-- The upper bound before a level has been opened. -/
def auF (F : List VarState × Book) (k v : Nat) : Int := -atLevel (ustF F v) (-upF F v) k
/-- The watches of a variable. -/
def wtF (F : List VarState × Book) (v : Nat) : List (Int × Nat) := F.2.watches.getD v []

/-- The view of a frame. -/
def viewF (F : List VarState × Book) : View where
  segs := cuts Lvl.removedOff F.2.levels F.2.removed
  wt := wtF F
  dl := fun v => loF F v - ldF F v
  du := fun v => upF F v - udF F v
  al := alF F
  au := auF F

/-- The invariant of the bookkeeping. -/
structure BI (F : List VarState × Book) : Prop where
  lenW : F.2.watches.length = F.1.length
  lenL : F.2.ldiff.length = F.1.length
  lenU : F.2.udiff.length = F.1.length
  dec : (F.2.levels.map (·.level)).Pairwise (· > ·)
  cutL : CutOK Lvl.undoLowerOff F.2.levels F.2.undoLower
  cutU : CutOK Lvl.undoUpperOff F.2.levels F.2.undoUpper
  cutI : CutOK Lvl.inactiveOff F.2.levels F.2.inactive
  cutR : CutOK Lvl.removedOff F.2.levels F.2.removed
  low : SideInv (cuts Lvl.undoLowerOff F.2.levels F.2.undoLower) (loF F) (ldF F) (lstF F) F.2.inLdiff
  upp : SideInv (cuts Lvl.undoUpperOff F.2.levels F.2.undoUpper) (fun v => -upF F v) (fun v => -udF F v) (ustF F) F.2.inUdiff
  inac : ∀ s ∈ cuts Lvl.inactiveOff F.2.levels F.2.inactive, 0 < s.1 → ∀ n ∈ s.2, ∀ c, F.2.cs[n]? = some c → c.inactive = s.1 + 1
  inac' : ∀ (n : Nat) c, F.2.cs[n]? = some c → 0 < c.inactive →
    ∃ s ∈ cuts Lvl.inactiveOff F.2.levels F.2.inactive, n ∈ s.2 ∧ c.inactive = s.1 + 1
  track : ∀ (n : Nat) c, F.2.cs[n]? = some c → c.alive = true → Tracked (viewF F) n c
  todo : ∀ n ∈ F.2.todo, ∀ c, F.2.cs[n]? = some c → ∀ l ∈ F.2.levels, c.removableAt l.level = false
  rngW : ∀ v, ∀ w ∈ wtF F v, w.2 < F.2.cs.length
  rngR : ∀ r ∈ F.2.removed, r.1 < F.1.length ∧ r.2.2 < F.2.cs.length
  rngI : ∀ n ∈ F.2.inactive, n < F.2.cs.length
  rngT : ∀ n ∈ F.2.todo, n < F.2.cs.length

theorem cuts_mem_levels {α : Type} {off : Lvl → Nat} {ls : List Lvl} {u : List α} {s : Nat × List α} (h : s ∈ cuts off ls u) :
    ∃ l ∈ ls, l.level = s.1 := by
  have : s.1 ∈ (cuts off ls u).map (·.1) := List.mem_map_of_mem h
  rw [cuts_levels] at this
  exact List.mem_map.mp this

theorem cuts_mem_of {α : Type} {off : Lvl → Nat} {ls : List Lvl} {u : List α} {l : Lvl} (h : l ∈ ls) :
    ∃ s ∈ cuts off ls u, s.1 = l.level := by
  have : l.level ∈ (cuts off ls u).map (·.1) := by rw [cuts_levels]; exact List.mem_map_of_mem h
  exact List.mem_map.mp this

theorem getD_set {α : Type} {l : List α} {i : Nat} {x d : α} (h : i < l.length) :
    (fun v => (l.set i x).getD v d) = Function.update (fun v => l.getD v d) i x := by
  funext v
  by_cases hv : v = i
  · subst hv; simp [h]
  · rw [Function.update_of_ne hv]
    simp only [List.getD_eq_getElem?_getD]
    rw [List.getElem?_set_ne (fun e => hv e.symm)]

variable {vs : List VarState} {b b' : Book} {v : Nat} {y : VarState}

theorem loF_set (h : v < vs.length) : loF (vs.set v y, b') = Function.update (loF (vs, b)) v y.lower := by
  funext w
  by_cases hw : w = v
  · subst hw; simp [loF, h]
  · rw [Function.update_of_ne hw]; simp only [loF]; rw [List.getElem?_set_ne (fun e => hw e.symm)]
theorem upF_set (h : v < vs.length) : upF (vs.set v y, b') = Function.update (upF (vs, b)) v y.upper := by
  funext w
  by_cases hw : w = v
  · subst hw; simp [upF, h]
  · rw [Function.update_of_ne hw]; simp only [upF]; rw [List.getElem?_set_ne (fun e => hw e.symm)]
theorem lstF_set (h : v < vs.length) : lstF (vs.set v y, b') = Function.update (lstF (vs, b)) v y.lowerStack := by
  funext w
  by_cases hw : w = v
  · subst hw; simp [lstF, h]
  · rw [Function.update_of_ne hw]; simp only [lstF]; rw [List.getElem?_set_ne (fun e => hw e.symm)]
theorem ustF_set (h : v < vs.length) : ustF (vs.set v y, b') = Function.update (ustF (vs, b)) v (negStk y.upperStack) := by
  funext w
  by_cases hw : w = v
  · subst hw; simp [ustF, h]
  · rw [Function.update_of_ne hw]; simp only [ustF]; rw [List.getElem?_set_ne (fun e => hw e.symm)]

theorem update_neg {f : Nat → Int} {v : Nat} {x : Int} :
    (fun w => -Function.update f v x w) = Function.update (fun w => -f w) v (-x) := by
  funext w
  by_cases hw : w = v
  · subst hw; simp
  · simp [hw]

theorem update_same {α : Type} {f : Nat → α} {v : Nat} {x : α} (h : f v = x) : Function.update f v x = f := by
  rw [← h]; exact Function.update_eq_self v f

/-- The levels below the current one. -/
theorem BI.below {F : List VarState × Book} (h : BI F) {l : Lvl} {ls : List Lvl} (hl : F.2.levels = l :: ls) :
    ∀ t ∈ ls, t.level < l.level := by
  have := h.dec
  rw [hl, List.map_cons, List.pairwise_cons] at this
  intro t ht
  exact this.1 _ (List.mem_map_of_mem ht)

theorem below_cuts {α : Type} {off : Lvl → Nat} {l : Lvl} {ls : List Lvl} {u : List α} (h : ∀ t ∈ ls, t.level < l.level) :
    ∀ s ∈ cuts off ls u, s.1 < l.level := by
  intro s hs
  obtain ⟨t, ht, he⟩ := cuts_mem_levels hs
  rw [← he]; exact h t ht

/-- Changes of constraint states. -/
theorem BI.setAll (h : BI (vs, b)) {cs' : List CState} {todo' : List Nat} (hl : cs'.length = b.cs.length)
    (hc : ∀ (n : Nat) c', cs'[n]? = some c' → ∃ c, b.cs[n]? = some c ∧ c'.inactive = c.inactive ∧
      (c'.alive = true → c.alive = true ∧ (Tracked (viewF (vs, b)) n c → Tracked (viewF (vs, b)) n c')))
    (ht : ∀ n ∈ todo', n ∈ b.todo ∨ ∃ c, b.cs[n]? = some c ∧ c.inactive = 0) :
    BI (vs, { b with cs := cs', todo := todo' }) where
  lenW := h.lenW
  lenL := h.lenL
  lenU := h.lenU
  dec := h.dec
  cutL := h.cutL
  cutU := h.cutU
  cutI := h.cutI
  cutR := h.cutR
  low := h.low
  upp := h.upp
  inac s hs h0 n hn c' hc' := by
    obtain ⟨c, h1, h2, -⟩ := hc n c' hc'
    rw [h2]; exact h.inac s hs h0 n hn c h1
  inac' n c' hc' hi := by
    obtain ⟨c, h1, h2, -⟩ := hc n c' hc'
    rw [h2] at hi ⊢; exact h.inac' n c h1 hi
  track n c' hc' ha := by
    obtain ⟨c, h1, h2, h3⟩ := hc n c' hc'
    exact (h3 ha).2 (h.track n c h1 (h3 ha).1)
  todo n hn c' hc' l hl := by
    obtain ⟨c, h1, h2, -⟩ := hc n c' hc'
    have he : c'.removableAt l.level = c.removableAt l.level := by unfold CState.removableAt CState.markedInactive; rw [h2]
    rw [he]
    rcases ht n hn with ht | ⟨c2, h4, h5⟩
    · exact h.todo n ht c h1 l hl
    · rw [h1] at h4; injection h4 with h4; subst h4
      unfold CState.removableAt CState.markedInactive; simp [h5]
  rngW v w hw := by
    have := h.rngW v w hw
    simp only at *; omega
  rngR r hr := by
    have := h.rngR r hr
    simp only at *; omega
  rngI n hn := by
    have := h.rngI n hn
    simp only at *; omega
  rngT n hn := by
    simp only
    rw [hl]
    rcases ht n hn with ht | ⟨c, h1, -⟩
    · exact h.rngT n ht
    · exact (List.getElem?_eq_some_iff.mp h1).1

theorem BI.mark (h : BI (vs, b)) (he : MarkEff b b') : BI (vs, b') := by
  rw [he.rest]
  refine h.setAll he.len ?_ he.todo
  intro n c' hc'
  obtain ⟨c, hc⟩ := getElem?_of_len he.len hc'
  obtain ⟨c2, h1, h2, h3⟩ := he.cs n c hc
  rw [hc'] at h1; injection h1 with h1; subst h1
  exact ⟨c, hc, h2.inactive, fun ha => ⟨h2.alive ▸ ha, fun ht => ht.same (SameV.refl _) h2 h3⟩⟩

/-- Change of a constraint state. -/
theorem BI.setOne (h : BI (vs, b)) {n : Nat} {c c' : CState} (hc : b.cs[n]? = some c) (hi : c'.inactive = c.inactive)
    (ht : c'.alive = true → c.alive = true ∧ (Tracked (viewF (vs, b)) n c → Tracked (viewF (vs, b)) n c')) :
    BI (vs, { b with cs := b.cs.set n c' }) := by
  have := h.setAll (cs' := b.cs.set n c') (todo' := b.todo) (by simp) ?_ (fun _ h => Or.inl h)
  · exact this
  intro m x hx
  obtain ⟨x0, hx0⟩ := getElem?_of_len (a := b.cs) (by simp) hx
  rcases getElem?_set_cases (c := c') (n := n) hx0 with ⟨rfl, he⟩ | ⟨-, he⟩
  · rw [hx] at he; injection he with he; subst he
    exact ⟨c, hc, hi, ht⟩
  · rw [hx] at he; injection he with he; subst he
    exact ⟨x, hx0, rfl, fun ha => ⟨ha, id⟩⟩

/-- Marking a constraint inactive. -/
theorem BI.markInactive (h : BI (vs, b)) {l : Lvl} {ls : List Lvl} (hl : b.levels = l :: ls) (n : Nat) : BI (vs, b.markInactive l.level n) := by
  unfold Book.markInactive
  cases hc : b.cs[n]? with
  | none => exact h
  | some c =>
    dsimp only
    split_ifs with hm
    swap
    · exact h
    have h0 : c.inactive = 0 := by
      unfold CState.markedInactive at hm
      simp at hm; omega
    have hlt := h.below hl
    have hcut := h.cutI
    simp only at hcut
    rw [hl] at hcut
    have hap := cuts_append (x := [n]) hcut
    have hsegs : ∀ s ∈ cuts Lvl.inactiveOff (l :: ls) (b.inactive ++ [n]), (s.1 = l.level ∧ s.2 = b.inactive.drop l.inactiveOff ++ [n]) ∨
        s ∈ cuts Lvl.inactiveOff ls (b.inactive.take l.inactiveOff) := by
      rw [hap.1]
      intro s hs
      rcases List.mem_cons.mp hs with rfl | hs
      · exact Or.inl ⟨rfl, rfl⟩
      · exact Or.inr hs
    have hi' := h.inac'
    have hi := h.inac
    simp only at hi hi'
    rw [hl] at hi hi'
    have hget : ∀ {m : Nat} {x : CState}, (b.cs.set n { c with inactive := l.level + 1 })[m]? = some x →
        (m = n ∧ x = { c with inactive := l.level + 1 }) ∨ (m ≠ n ∧ b.cs[m]? = some x) := by
      intro m x hx
      obtain ⟨x0, hx0⟩ := getElem?_of_len (a := b.cs) (by simp) hx
      rcases getElem?_set_cases (c := { c with inactive := l.level + 1 }) (n := n) hx0 with ⟨rfl, he⟩ | ⟨hmn, he⟩
      · rw [hx] at he; injection he with he; subst he; exact Or.inl ⟨rfl, rfl⟩
      · rw [hx] at he; injection he with he; subst he; exact Or.inr ⟨hmn, hx0⟩
    refine ⟨h.lenW, h.lenL, h.lenU, h.dec, h.cutL, h.cutU, ?_, h.cutR, h.low, h.upp, ?_, ?_, ?_, ?_, ?_, ?_, ?_, ?_⟩
    · simp only; rw [hl]; exact hap.2
    · simp only; rw [hl]
      intro s hs hpos m hm x hx
      rcases hget hx with ⟨rfl, rfl⟩ | ⟨hne, hx⟩
      · rcases hsegs s hs with ⟨h1, -⟩ | hs
        · simp only; omega
        · exfalso
          have := hi s (List.mem_cons_of_mem _ hs) hpos m hm c hc; omega
      · rcases hsegs s hs with ⟨h1, h2⟩ | hs
        · rw [h2] at hm
          rcases List.mem_append.mp hm with hm | hm
          · rw [h1] at hpos ⊢
            exact hi (l.level, b.inactive.drop l.inactiveOff) (List.mem_cons_self ..) hpos m hm x hx
          · rw [List.mem_singleton] at hm; exact absurd hm hne
        · exact hi s (List.mem_cons_of_mem _ hs) hpos m hm x hx
    · simp only; rw [hl]
      intro m x hx hpos
      rw [hap.1]
      rcases hget hx with ⟨rfl, rfl⟩ | ⟨hne, hx⟩
      · exact ⟨_, List.mem_cons_self .., by simp, rfl⟩
      · obtain ⟨s, hs, h1, h2⟩ := hi' m x hx hpos
        rcases List.mem_cons.mp hs with rfl | hs
        · exact ⟨_, List.mem_cons_self .., List.mem_append_left _ h1, h2⟩
        · exact ⟨s, List.mem_cons_of_mem _ hs, h1, h2⟩
    · intro m x hx ha
      rcases hget hx with ⟨rfl, rfl⟩ | ⟨hne, hx⟩
      · have ht := h.track m c hc ha
        refine Tracked.inactive (V := viewF (vs, b)) ?_ h0 ht
        intro s hs
        obtain ⟨t, ht, he⟩ := cuts_mem_levels hs
        simp only at ht; rw [hl] at ht
        rcases List.mem_cons.mp ht with rfl | ht
        · omega
        · have := hlt t ht; omega
      · exact h.track m x hx ha
    · intro m hm x hx t ht
      rcases hget hx with ⟨rfl, rfl⟩ | ⟨hne, hx⟩
      · simp only at ht; rw [hl] at ht
        have : t.level ≤ l.level := by
          rcases List.mem_cons.mp ht with rfl | ht
          · exact le_refl _
          · exact le_of_lt (hlt t ht)
        unfold CState.removableAt CState.markedInactive; simp; omega
      · exact h.todo m hm x hx t ht
    · intro v w hw; have := h.rngW v w hw; simpa using this
    · intro r hr; have := h.rngR r hr; simpa using this
    · intro m hm
      simp only [List.length_set]
      rcases List.mem_append.mp hm with hm | hm
      · exact h.rngI m hm
      · rw [List.mem_singleton] at hm; subst hm; exact (List.getElem?_eq_some_iff.mp hc).1
    · intro m hm; have := h.rngT m hm; simpa using this

end Clingcon
