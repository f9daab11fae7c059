import Verif.Spec.Bounds
import Verif.Proof.Steps

/-! Properties of levels and of the incremental bookkeeping: C20 and C21. -/
namespace Clingcon.Props
open Clingcon Clingcon.Spec

variable {W W0 W1 W2 W3 W' : World}

theorem lowerOf_eq {v : Nat} : lowerOf W v = loF (frame W) v := by
  unfold lowerOf boundsOf loF frame
  simp only [List.getElem?_map]
  cases W.vars[v]? <;> rfl

theorem upperOf_eq {v : Nat} : upperOf W v = upF (frame W) v := by
  unfold upperOf boundsOf upF frame
  simp only [List.getElem?_map]
  cases W.vars[v]? <;> rfl

theorem boundsOf_eq (hl : W'.vars.length = W.vars.length) (h1 : loF (frame W') = loF (frame W)) (h2 : upF (frame W') = upF (frame W)) : boundsOf W' = boundsOf W := by
  apply List.ext_getElem?
  intro v
  have e1 := congrFun h1 v
  have e2 := congrFun h2 v
  rw [← lowerOf_eq, ← lowerOf_eq] at e1
  rw [← upperOf_eq, ← upperOf_eq] at e2
  unfold lowerOf at e1
  unfold upperOf at e2
  by_cases hv : v < W.vars.length
  · have a : (boundsOf W)[v]? = some ((boundsOf W)[v]'(by simpa [boundsOf] using hv)) := List.getElem?_eq_getElem _
    have b : (boundsOf W')[v]? = some ((boundsOf W')[v]'(by simpa [boundsOf, hl] using hv)) := List.getElem?_eq_getElem _
    rw [a, b] at e1 e2 ⊢
    simp only [Option.elim_some] at e1 e2
    rw [Prod.ext e1 e2]
  · have a : (boundsOf W)[v]? = none := List.getElem?_eq_none (by simpa [boundsOf] using hv)
    have b : (boundsOf W')[v]? = none := List.getElem?_eq_none (by simpa [boundsOf, hl] using hv)
    rw [a, b]

/-! ### C20 -/

/-- While a level stays open, the bounds recorded for it do not change. -/
theorem above_keeps {L : List Lvl} {l : Lvl} {ops : List Op} (h0 : 0 < l.level) (h : RunIn (fun W => L.length < W.book.levels.length) ops W1 W2) (hi : WI W1)
    (hl : ∃ pre, W1.book.levels = pre ++ l :: L) : WI W2 ∧ (∃ pre, W2.book.levels = pre ++ l :: L) ∧ W2.vars.length = W1.vars.length ∧
      alF (frame W2) l.level = alF (frame W1) l.level ∧ auF (frame W2) l.level = auF (frame W1) l.level := by
  induction h with
  | nil _ => exact ⟨hi, hl, rfl, rfl, rfl⟩
  | @cons op ops Wa Wb Wc r hP hp hx hrun ih =>
    obtain ⟨hi1, hr⟩ := step_eff hp hx hi
    have hP1 : L.length < Wb.book.levels.length := by cases hrun <;> assumption
    obtain ⟨pre, hl⟩ := hl
    have htop : ∀ x ∈ Wa.book.levels.head?, l.level ≤ x.level := by
      intro x hx
      have hd := hi.bi.dec
      simp only [frame] at hd
      rw [hl] at hx hd
      cases pre with
      | nil => injection hx with hx; subst hx; exact Nat.le_refl _
      | cons y ys =>
        injection hx with hx; subst hx
        rw [List.cons_append, List.map_cons, List.pairwise_cons] at hd
        have := hd.1 l.level (List.mem_map_of_mem (by simp))
        omega
    have hne : ∃ x, Wa.book.levels.head? = some x := by
      rw [hl]; cases pre <;> exact ⟨_, rfl⟩
    obtain ⟨x, hx0⟩ := hne
    have key : (∃ pre, Wb.book.levels = pre ++ l :: L) ∧ Wb.vars.length = Wa.vars.length ∧
        alF (frame Wb) l.level = alF (frame Wa) l.level ∧ auF (frame Wb) l.level = auF (frame Wa) l.level := by
      have hlen : ∀ {F F' : List VarState × Book}, F = frame Wa → F' = frame Wb → F'.1.length = F.1.length → Wb.vars.length = Wa.vars.length := by
        rintro _ _ rfl rfl h
        simpa [frame] using h
      cases hr with
      | same e s =>
        obtain ⟨s1, s2⟩ := s x hx0
        have := htop x hx0
        exact ⟨⟨pre, (show Wb.book.levels = Wa.book.levels from e).trans hl⟩, hlen rfl rfl (s1 (by omega)), s2 l.level h0 this⟩
      | push l' e hn _ _ _ s _ _ =>
        refine ⟨⟨l' :: pre, ?_⟩, hlen rfl rfl hn, s x hx0 l.level h0 (htop x hx0)⟩
        rw [show Wb.book.levels = l' :: Wa.book.levels from e, hl]; rfl
      | pop l' e hn _ _ _ s =>
        have e : Wa.book.levels = l' :: Wb.book.levels := e
        have hx' : x = l' := by rw [e] at hx0; injection hx0 with hx0; exact hx0.symm
        subst hx'
        refine ⟨?_, hlen rfl rfl hn, s l.level (htop x hx0)⟩
        rw [e] at hl
        cases pre with
        | nil =>
          injection hl with _ hl
          rw [hl] at hP1; omega
        | cons y ys =>
          injection hl with _ hl
          exact ⟨ys, hl⟩
    obtain ⟨k1, k2, k3, k4⟩ := key
    obtain ⟨i1, i2, i3, i4, i5⟩ := ih hi1 k1
    exact ⟨i1, i2, i3.trans k2, i4.trans k3, i5.trans k4⟩

/-- **C20** Let a call of `propagate` open a level in a reachable state `W0`. After any sequence of calls
that does not close the level (but may open and close levels above it), closing the level restores the bounds
of all variables. The levels are also the same again, and there is no pending work. -/
theorem C20_undo_restores_bounds {cc : CC} {ls : List Int} {r : Bool} {ops : List Op} {u : Unit} (hr : Reach W0)
    (hpre : (Op.propagate cc ls).pre W0) (hopen : W0.level < cc.level) (hprop : solverPropagate cc ls W0 = .ok (r, W1))
    (hrun : RunIn (fun W => W0.book.levels.length < W.book.levels.length) ops W1 W2)
    (hundo : solverUndo W2 = .ok (u, W3)) (hclosed : W3.book.levels.length = W0.book.levels.length) :
    boundsOf W3 = boundsOf W0 ∧ W3.book.levels = W0.book.levels ∧ W3.settled := by
  have hi := hr.wi
  obtain ⟨h1, h2, h3⟩ := propagate_eff hprop hi.bi hpre
  obtain ⟨hi1, -⟩ := step_eff (op := .propagate cc ls) hpre hprop hi
  have hgt : W0.book.levels.length < W1.book.levels.length := by cases hrun <;> assumption
  obtain ⟨l, e, hn, h0, al, au⟩ : ∃ l : Lvl, W1.book.levels = l :: W0.book.levels ∧ (frame W1).1.length = (frame W0).1.length ∧ 0 < l.level ∧
      alF (frame W1) l.level = loF (frame W0) ∧ auF (frame W1) l.level = upF (frame W0) := by
    cases h2 with
    | same e => rw [show W1.book.levels = W0.book.levels from e] at hgt; omega
    | push l e hn _ h0 _ _ a b => exact ⟨l, e, hn, h0, a, b⟩
    | pop l e => rw [show W0.book.levels = l :: W1.book.levels from e] at hgt; simp at hgt
  obtain ⟨hi2, ⟨pre, hl2⟩, n2, a2, u2⟩ := above_keeps h0 hrun hi1 ⟨[], e⟩
  obtain ⟨l', ls', e1, e2, e3, e4, e5, e6, e7, e8, e9⟩ := solverUndo_eff hundo hi2.bi
  have hpre : pre = [] := by
    rw [e1] at hl2
    cases pre with
    | nil => rfl
    | cons y ys =>
      injection hl2 with _ hl2
      rw [e4, hl2] at hclosed
      simp at hclosed; omega
  subst hpre
  rw [e1] at hl2
  injection hl2 with hl2 hl3
  subst hl2 hl3
  refine ⟨boundsOf_eq ?_ ?_ ?_, e4, ⟨e5.low, e5.upp⟩, e6⟩
  · rw [len_solverUndo hundo, n2]; simpa [frame] using hn
  · rw [e7, a2, al]
  · rw [e8, u2, au]

/-- **C20** The condition for opening a level (`Op.pre`) is met after a successful check on the current
decision level. -/
theorem C20_check_settles {cc : CC} {ck : Bool} {n : Nat} (hr : Reach W) (h : solverCheck cc ck n W = .ok (true, W')) (hl : cc.level = W.level) :
    W'.settled ∧ Reach W' := by
  have hi := hr.wi
  obtain ⟨-, h2⟩ := solverCheck_eff h (L := W.book.levels) (A := (alF (frame W), auF (frame W), (frame W).1.length)) ⟨hi.bi, rfl, fun _ _ _ _ _ => ⟨rfl, rfl⟩, rfl⟩
  have := h2 rfl (Or.inl (fun l hl' => Or.inl (by rw [hl]; unfold World.level; cases hh : W.book.levels with
    | nil => rw [hh] at hl'; cases hl'
    | cons x xs => rw [hh] at hl'; injection hl' with hl'; subst hl'; rfl)))
  exact ⟨⟨⟨this.low, this.upp⟩, this.todo⟩, hr.step (op := .check cc ck n) trivial h⟩

/-! ### C21 -/

theorem lowSum_eq {f g : Nat → Int} {es : List (Int × Nat)} : lowSum f g es = leastSum f g es := by
  induction es with
  | nil => rfl
  | cons e es ih => unfold lowSum leastSum; rw [ih]

theorem upSum_eq {f g : Nat → Int} {es : List (Int × Nat)} : upSum f g es = greatestSum f g es := by
  unfold upSum
  induction es with
  | nil => rfl
  | cons e es ih => unfold lowSum greatestSum; rw [ih]

/-- A constraint state is skipped by the delivery of changes of bounds on the current level only if it was
marked inactive on a lower level. -/
theorem counted_of_reach {n : Nat} {c : CState} (hr : Reach W) (hc : W.book.cs[n]? = some c) (ha : c.alive = true) (hi : c.removableAt W.level = false) :
    Counted c (fun v => loF (frame W) v - ldF (frame W) v) (fun v => upF (frame W) v - udF (frame W) v) := by
  have h := hr.wi
  refine (h.bi.track n c hc ha).counted (fun s hs => ?_)
  obtain ⟨l, hl, e⟩ := cuts_mem_levels hs
  have hle : s.1 ≤ W.level := by
    rw [← e]
    unfold World.level
    have hd := h.bi.dec
    simp only [frame] at hd hl
    cases hh : W.book.levels with
    | nil => rw [hh] at hl; cases hl
    | cons x xs =>
      rw [hh] at hl hd
      rcases List.mem_cons.mp hl with rfl | hl
      · exact Nat.le_refl _
      · rw [List.map_cons, List.pairwise_cons] at hd
        have := hd.1 l.level (List.mem_map_of_mem hl)
        simp only; omega
  cases hx : c.removableAt s.1 with
  | false => rfl
  | true =>
    unfold CState.removableAt at hx hi
    simp only [Bool.and_eq_true, decide_eq_true_eq, Bool.and_eq_false_iff, decide_eq_false_iff_not] at hx hi
    rcases hi with h1 | h1
    · rw [hx.1] at h1; cases h1
    · omega

theorem counted_quiet {n : Nat} {c : CState} (hr : Reach W) (hq : W.noChanges) (hc : W.book.cs[n]? = some c) (ha : c.alive = true)
    (hi : c.removableAt W.level = false) : Counted c (lowerOf W) (upperOf W) := by
  obtain ⟨z1, z2⟩ := hr.wi.bi.quiet ⟨hq.1, hq.2⟩
  have := counted_of_reach hr hc ha hi
  rw [z1, z2] at this
  refine this.congr (fun v _ => ?_)
  rw [lowerOf_eq, upperOf_eq]
  exact ⟨Int.sub_zero _, Int.sub_zero _⟩

/-- **C21** In each reachable state without pending changes of bounds, the sums recorded for a linear
constraint that is not inactive are the sums over the current bounds. -/
theorem C21_sums_exact {n : Nat} {c : CState} {lit rhs : Int} {es : List (Int × Nat)} (hr : Reach W) (hq : W.noChanges)
    (hc : W.book.cs[n]? = some c) (ha : c.alive = true) (hi : c.removableAt W.level = false) (hk : c.con = .sum lit rhs es) :
    c.lower = leastSum (lowerOf W) (upperOf W) es ∧ c.upper = greatestSum (lowerOf W) (upperOf W) es := by
  have := counted_quiet hr hq hc ha hi
  unfold Counted Mid at this
  rw [hk] at this
  simp only [signSum, mul_zero, add_zero] at this
  rw [← lowSum_eq, ← upSum_eq]
  simpa using this

/-- **C21** The same for the objective function. -/
theorem C21_minimize_exact {n : Nat} {c : CState} {adjust : Int} {es : List (Int × Nat)} (hr : Reach W) (hq : W.noChanges)
    (hc : W.book.cs[n]? = some c) (ha : c.alive = true) (hi : c.removableAt W.level = false) (hk : c.con = .minimize adjust es) :
    c.lower = leastSum (lowerOf W) (upperOf W) es ∧ c.upper = greatestSum (lowerOf W) (upperOf W) es := by
  have := counted_quiet hr hq hc ha hi
  unfold Counted Mid at this
  rw [hk] at this
  simp only [signSum, mul_zero, add_zero] at this
  rw [← lowSum_eq, ← upSum_eq]
  simpa using this

/-- **C21** With pending changes of bounds, the sums are those over the bounds before the changes. -/
theorem C21_sums_pending {n : Nat} {c : CState} {lit rhs : Int} {es : List (Int × Nat)} (hr : Reach W)
    (hc : W.book.cs[n]? = some c) (ha : c.alive = true) (hi : c.removableAt W.level = false) (hk : c.con = .sum lit rhs es) :
    c.lower = leastSum (fun v => lowerOf W v - W.book.ldiff.getD v 0) (fun v => upperOf W v - W.book.udiff.getD v 0) es ∧
    c.upper = greatestSum (fun v => lowerOf W v - W.book.ldiff.getD v 0) (fun v => upperOf W v - W.book.udiff.getD v 0) es := by
  have := counted_of_reach hr hc ha hi
  unfold Counted Mid at this
  rw [hk] at this
  rw [← lowSum_eq, ← upSum_eq]
  have e1 : (fun v => lowerOf W v - W.book.ldiff.getD v 0) = fun v => loF (frame W) v - ldF (frame W) v := by
    funext v; rw [lowerOf_eq]; rfl
  have e2 : (fun v => upperOf W v - W.book.udiff.getD v 0) = fun v => upF (frame W) v - udF (frame W) v := by
    funext v; rw [upperOf_eq]; rfl
  rw [e1, e2]
  simpa [signSum] using this

/-- **C21** The bounds recorded for the elements of a distinct constraint, except for those that still have
to be recomputed, are the bounds of the elements. -/
theorem C21_distinct_exact {n idx : Nat} {c : CState} {lit : Int} {es : List (List (Int × Nat) × Int)} {e : List (Int × Nat) × Int} (hr : Reach W) (hq : W.noChanges)
    (hc : W.book.cs[n]? = some c) (ha : c.alive = true) (hi : c.removableAt W.level = false) (hk : c.con = .distinct lit es)
    (he : es[idx]? = some e) (hd : idx ∉ c.dirty) :
    c.assigned[idx]? = some (leastSum (lowerOf W) (upperOf W) e.1 + e.2, greatestSum (lowerOf W) (upperOf W) e.1 + e.2) := by
  have := counted_quiet hr hq hc ha hi
  unfold Counted Mid at this
  rw [hk] at this
  rw [← lowSum_eq, ← upSum_eq]
  exact this.2.2.2 idx e he hd

/-! ### A concrete case -/

/-- A Boolean solver that accepts all clauses and has assigned the given atoms. -/
def assigns (level : Nat) (atoms : List (Nat × Bool)) : CC where
  conf := {}
  atom := fun _ a => if a = 1 then some true else (atoms.find? (fun p => p.1 == a)).map (·.2)
  fix := fun _ a => a == 1
  lev := fun _ a => if a = 1 then 0 else 1
  level := level
  accept := fun _ => true

/-- Two variables with domain `[0, 10]`, `x + y ≤ 18`, and an order literal for `x ≤ 4`. -/
def setup : List Op := [.addVar 0 10, .addVar 0 10, .addConstraint (.sum 1 18 [(1, 0), (1, 1)]), .literal (assigns 0 []) 0 4, .check (assigns 0 []) false 9]

def afterSetup : World := (tryRun setup (World.init 2)).getD (World.init 2)
def afterPropagate : World := (tryRun [.propagate (assigns 1 [(2, true)]) [2]] afterSetup).getD (World.init 2)
def afterCheck : World := (tryRun [.check (assigns 1 [(2, true)]) true 9] afterPropagate).getD (World.init 2)
def afterUndo : World := (tryRun [.undo] afterCheck).getD (World.init 2)

theorem tryRun_getD {ops : List Op} {W D : World} (h : (tryRun ops W).isSome = true) : Run ops W ((tryRun ops W).getD D) := by
  cases hh : tryRun ops W with
  | none => rw [hh] at h; cases h
  | some W' => exact tryRun_run hh

theorem afterSetup_reach : Reach afterSetup := ⟨2, setup, by decide, tryRun_getD (by decide +kernel)⟩

theorem one_call {op : Op} {W D : World} (h : (tryRun [op] W).isSome = true) : op.pre W ∧ ∃ r, op.exec W = .ok (r, (tryRun [op] W).getD D) := by
  generalize he : (tryRun [op] W).getD D = W'
  have := tryRun_getD (D := D) h
  rw [he] at this
  cases this with
  | cons hp hx hrun => cases hrun; exact ⟨hp, _, hx⟩

/-- The hypotheses of `C20_undo_restores_bounds` are met in a case where the bounds change. -/
example : Reach afterSetup ∧ (∃ r, solverPropagate (assigns 1 [(2, true)]) [2] afterSetup = .ok (r, afterPropagate)) ∧
    RunIn (fun W => afterSetup.book.levels.length < W.book.levels.length) [.check (assigns 1 [(2, true)]) true 9] afterPropagate afterCheck ∧
    (∃ u, solverUndo afterCheck = .ok (u, afterUndo)) ∧ afterUndo.book.levels.length = afterSetup.book.levels.length ∧
    boundsOf afterSetup = [(0, 10), (0, 10)] ∧ boundsOf afterCheck = [(5, 10), (0, 10)] ∧ boundsOf afterUndo = [(0, 10), (0, 10)] := by
  have h1 := one_call (op := .propagate (assigns 1 [(2, true)]) [2]) (W := afterSetup) (D := World.init 2) (by decide +kernel)
  have h2 := one_call (op := .check (assigns 1 [(2, true)]) true 9) (W := afterPropagate) (D := World.init 2) (by decide +kernel)
  have h3 := one_call (op := .undo) (W := afterCheck) (D := World.init 2) (by decide +kernel)
  refine ⟨afterSetup_reach, h1.2, ?_, ?_, by decide +kernel, by decide +kernel, by decide +kernel, by decide +kernel⟩
  · obtain ⟨r, h2'⟩ := h2.2
    exact .cons (by decide +kernel) h2.1 h2' (.nil (by decide +kernel))
  · obtain ⟨r, h3'⟩ := h3.2
    obtain ⟨u, W', h4, h5⟩ := SM.bind_ok h3'
    obtain ⟨-, h6⟩ := pure_iff.mp h5
    exact ⟨u, by rw [h4, ← h6]; rfl⟩

/-- The hypotheses of `C21_sums_exact` are met in a state on level 1, where the sums are those over the
changed bounds. -/
example : Reach afterCheck ∧ afterCheck.noChanges ∧ ∃ c, afterCheck.book.cs[0]? = some c ∧ c.alive = true ∧ c.removableAt afterCheck.level = false ∧
    c.con = .sum 1 18 [(1, 0), (1, 1)] ∧ c.lower = 5 ∧ c.upper = 20 := by
  have h1 := one_call (op := .propagate (assigns 1 [(2, true)]) [2]) (W := afterSetup) (D := World.init 2) (by decide +kernel)
  have h2 := one_call (op := .check (assigns 1 [(2, true)]) true 9) (W := afterPropagate) (D := World.init 2) (by decide +kernel)
  obtain ⟨r1, e1⟩ := h1.2
  obtain ⟨r2, e2⟩ := h2.2
  refine ⟨(afterSetup_reach.step h1.1 e1).step h2.1 e2, by constructor <;> decide +kernel, (afterCheck.book.cs[0]?).getD { con := .disjoint 0 [] }, ?_⟩
  decide +kernel

end Clingcon.Props
