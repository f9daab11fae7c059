import Verif.Spec.InitClause
import Verif.Proof.Hoare

/-! C39: what is committed by `InitClauseCreator` means what was added. -/
namespace Clingcon.Props
open Clingcon Clingcon.Spec

/-- C39: the weight constraint passed to clingo is equivalent to the one that was added. -/
theorem C39_direction (β : Nat → Bool) (lit : Lit) (hl : lit ≠ 0) (wlits : List (Lit × Int)) (bound type : Int) :
    iHolds β (.weight (-lit) wlits (bound + 1) (-type)) ↔ evHolds β (.weight lit wlits bound type) := by
  have hn : litTrue β (-lit) ↔ ¬ litTrue β lit := Spec.litTrue_neg β lit hl
  simp only [iHolds, evHolds, hn]
  constructor
  · rintro ⟨h1, h2⟩
    constructor
    · intro ht hlit
      by_contra hc
      exact h2 (by omega) (by omega) hlit
    · intro ht hs
      by_contra hc
      have := h1 (by omega) hc
      omega
  · rintro ⟨h1, h2⟩
    constructor
    · intro ht hlit
      by_contra hc
      exact hlit (h2 (by omega) (by omega))
    · intro ht hs hlit
      have := h1 (by omega) hlit
      omega

/-! ### Invariant -/

/-- The vector of clauses. -/
def flat (C : List (List Lit)) : List Lit := C.flatMap (fun c => c ++ [0])

/-- Calls of clingo stem from calls of the clause creator. -/
def stems (added : List ICall) : IEv → Prop
  | .clause c => ICall.clause c ∈ added
  | .weight l ws b ty => ∃ t, ICall.weight t (-l) ws (b - 1) (-ty) ∈ added
  | .minimize .. => True

/-- Calls of the clause creator have been committed, are pending, or are redundant. -/
def kept (C : List (List Lit)) (ic : ICreator) (log : List IEv) : ICall → Prop
  | .clause c => c ∈ C ∨ IEv.clause c ∈ log
  | .weight t l ws b ty => (t = some true ∧ ty < 0) ∨ (t = some false ∧ ty > 0) ∨ (l, ws, b, ty) ∈ ic.weights ∨ IEv.weight (-l) ws (b + 1) (-ty) ∈ log
  | _ => True

/-- Cost of minimize literals that are pending. -/
def pendCost (β : Nat → Bool) (level : Int) (ms : List (Lit × Int × Int)) : Int :=
  iCost β level (ms.map (fun m => IEv.minimize m.1 m.2.1 m.2.2))

structure IInv (β : Nat → Bool) (level : Int) (added : List ICall) (C : List (List Lit)) (ic : ICreator) (log : List IEv) : Prop where
  flat : ic.clauses = flat C
  nz : ∀ c ∈ C, (∀ l ∈ c, l ≠ 0) ∧ ICall.clause c ∈ added
  weights : ∀ l ws b ty, (l, ws, b, ty) ∈ ic.weights → ∃ t, ICall.weight t l ws b ty ∈ added
  stems : ∀ e ∈ log, stems added e
  kept : ∀ c ∈ added, kept C ic log c
  cost : iCost β level log + pendCost β level ic.minimize = callCost β level added

theorem iCost_append (β : Nat → Bool) (k : Int) : ∀ a b, iCost β k (a ++ b) = iCost β k a + iCost β k b
  | [], b => by simp [iCost]
  | .clause c :: a, b => by simpa [iCost] using iCost_append β k a b
  | .weight _ _ _ _ :: a, b => by simpa [iCost] using iCost_append β k a b
  | .minimize l w j :: a, b => by simp only [List.cons_append, iCost, iCost_append β k a b]; omega

theorem iCost_reverse (β : Nat → Bool) (k : Int) : ∀ a, iCost β k a.reverse = iCost β k a
  | [] => rfl
  | e :: a => by
    rw [List.reverse_cons, iCost_append, iCost_reverse β k a, show e :: a = [e] ++ a from rfl, iCost_append]
    omega

theorem callCost_append (β : Nat → Bool) (k : Int) : ∀ a b, callCost β k (a ++ b) = callCost β k a + callCost β k b
  | [], b => by simp [callCost]
  | .clause c :: a, b => by simpa [callCost] using callCost_append β k a b
  | .weight _ _ _ _ _ :: a, b => by simpa [callCost] using callCost_append β k a b
  | .setState _ :: a, b => by simpa [callCost] using callCost_append β k a b
  | .commit _ :: a, b => by simpa [callCost] using callCost_append β k a b
  | .minimize l w j :: a, b => by simp only [List.cons_append, callCost, callCost_append β k a b]; omega

/-- The loop over the clauses without their representation. -/
def commitList (accept : List IEv → Bool) : List (List Lit) → List IEv → Bool × List IEv
  | [], log => (true, log)
  | c :: C, log => if accept (.clause c :: log) then commitList accept C (.clause c :: log) else (false, .clause c :: log)

theorem commitClauses_read (accept : List IEv → Bool) : ∀ (c rest cur : List Lit) (log : List IEv), (∀ l ∈ c, l ≠ 0) →
    ICreator.commitClauses accept (c ++ rest) cur log = ICreator.commitClauses accept rest (c.reverse ++ cur) log
  | [], rest, cur, log, _ => rfl
  | l :: c, rest, cur, log, h => by
    have hl : l ≠ 0 := h l (by simp)
    have ih := commitClauses_read accept c rest (l :: cur) log (fun l h' => h l (by simp [h']))
    simp only [List.cons_append, ICreator.commitClauses, hl, if_false, ih]
    simp

theorem commitClauses_eq (accept : List IEv → Bool) : ∀ (C : List (List Lit)) (log : List IEv), (∀ c ∈ C, ∀ l ∈ c, l ≠ 0) →
    ICreator.commitClauses accept (flat C) [] log = .ok (commitList accept C log)
  | [], log, _ => rfl
  | c :: C, log, h => by
    have e : flat (c :: C) = c ++ (0 :: flat C) := by simp [flat]
    rw [e, commitClauses_read accept c _ [] log (h c (by simp))]
    simp only [ICreator.commitClauses, if_true, List.append_nil, List.reverse_reverse, commitList]
    split
    · exact commitClauses_eq accept C _ (fun c' h' => h c' (by simp [h']))
    · rfl

theorem commitList_spec (accept : List IEv → Bool) (β : Nat → Bool) (k : Int) : ∀ (C : List (List Lit)) (log : List IEv),
    (∀ e ∈ log, e ∈ (commitList accept C log).2) ∧
    (∀ e ∈ (commitList accept C log).2, e ∈ log ∨ ∃ c ∈ C, e = .clause c) ∧
    ((commitList accept C log).1 = true → ∀ c ∈ C, IEv.clause c ∈ (commitList accept C log).2) ∧
    iCost β k (commitList accept C log).2 = iCost β k log
  | [], log => by simp [commitList]
  | c :: C, log => by
    unfold commitList
    split
    · obtain ⟨h1, h2, h3, h4⟩ := commitList_spec accept β k C (.clause c :: log)
      refine ⟨fun e he => h1 e (by simp [he]), fun e he => ?_, fun hr c' hc' => ?_, by rw [h4]; rfl⟩
      · rcases h2 e he with h | ⟨c', hc', rfl⟩
        · rcases List.mem_cons.mp h with rfl | h
          · exact Or.inr ⟨c, by simp, rfl⟩
          · exact Or.inl h
        · exact Or.inr ⟨c', by simp [hc'], rfl⟩
      · rcases List.mem_cons.mp hc' with rfl | h
        · exact h1 _ (by simp)
        · exact h3 hr c' h
    · refine ⟨fun e he => by simp [he], fun e he => ?_, fun hr => (by cases hr), rfl⟩
      rcases List.mem_cons.mp he with rfl | h
      · exact Or.inr ⟨c, by simp, rfl⟩
      · exact Or.inl h

theorem commitWeights_spec (accept : List IEv → Bool) (β : Nat → Bool) (k : Int) : ∀ (ws : List (Lit × List (Lit × Int) × Int × Int)) (log : List IEv)
    (r : Bool) (log' : List IEv), ICreator.commitWeights accept ws log = .ok (r, log') →
    (∀ e ∈ log, e ∈ log') ∧
    (∀ e ∈ log', e ∈ log ∨ ∃ l w b ty, (l, w, b, ty) ∈ ws ∧ e = .weight (-l) w (b + 1) (-ty)) ∧
    (r = true → ∀ l w b ty, (l, w, b, ty) ∈ ws → IEv.weight (-l) w (b + 1) (-ty) ∈ log') ∧
    iCost β k log' = iCost β k log
  | [], log, r, log', h => by
    injection h with h; injection h with h1 h2; subst h1; subst h2
    simp
  | (l, w, b, ty) :: ws, log, r, log', h => by
    unfold ICreator.commitWeights mAdd machine at h
    by_cases hb : Limits.val.min ≤ b + 1 ∧ b + 1 ≤ Limits.val.max
    · rw [if_pos hb] at h
      change (if accept (.weight (-l) w (b + 1) (-ty) :: log) = true then _ else _) = _ at h
      split at h
      · obtain ⟨h1, h2, h3, h4⟩ := commitWeights_spec accept β k ws _ r log' h
        refine ⟨fun e he => h1 e (by simp [he]), fun e he => ?_, fun hr l' w' b' ty' hm => ?_, by rw [h4]; rfl⟩
        · rcases h2 e he with h | ⟨l', w', b', ty', hm, rfl⟩
          · rcases List.mem_cons.mp h with rfl | h
            · exact Or.inr ⟨l, w, b, ty, by simp, rfl⟩
            · exact Or.inl h
          · exact Or.inr ⟨l', w', b', ty', by simp [hm], rfl⟩
        · rcases List.mem_cons.mp hm with he | h
          · injection he with e1 e; injection e with e2 e; injection e with e3 e4
            subst e1; subst e2; subst e3; subst e4
            exact h1 _ (by simp)
          · exact h3 hr _ _ _ _ h
      · injection h with h; injection h with e1 e2; subst e1; subst e2
        refine ⟨fun e he => by simp [he], fun e he => ?_, fun hr => (by cases hr), rfl⟩
        rcases List.mem_cons.mp he with rfl | h
        · exact Or.inr ⟨l, w, b, ty, by simp, rfl⟩
        · exact Or.inl h
    · rw [if_neg hb] at h; cases h

theorem stems_mono {a : List ICall} (x : ICall) {e : IEv} (h : stems a e) : stems (a ++ [x]) e := by
  cases e with
  | clause c => exact List.mem_append_left _ h
  | weight l w b t => obtain ⟨t', h⟩ := h; exact ⟨t', List.mem_append_left _ h⟩
  | minimize => trivial

/-- Commits preserve the invariant. -/
theorem commit_inv {β : Nat → Bool} {k : Int} {added : List ICall} {C : List (List Lit)} {ic : ICreator} {log : List IEv}
    (hi : IInv β k added C ic log) {accept : List IEv → Bool} {r : Bool} {ic' : ICreator} {log' : List IEv}
    (h : ic.commit accept log = .ok (r, ic', log')) :
    (∃ C', IInv β k added C' ic' log') ∧ (r = true → IInv β k added [] ic' log' ∧ ic'.weights = [] ∧ ic'.minimize = []) := by
  unfold ICreator.commit at h
  rw [hi.flat, commitClauses_eq accept C log (fun c hc => (hi.nz c hc).1)] at h
  obtain ⟨h1, h2, h3, h4⟩ := commitList_spec accept β k C log
  generalize hcl : commitList accept C log = q at h h1 h2 h3 h4
  obtain ⟨rq, lq⟩ := q
  have hst : ∀ e ∈ lq, stems added e := fun e he => by
    rcases h2 e he with h | ⟨c, hc, rfl⟩
    · exact hi.stems e h
    · exact (hi.nz c hc).2
  cases rq with
  | false =>
    injection h with h; injection h with e1 h; injection h with e2 e3
    subst e1; subst e2; subst e3
    refine ⟨⟨C, hi.flat, hi.nz, hi.weights, hst, fun c hc => ?_, by rw [show iCost β k lq = _ from h4]; exact hi.cost⟩, fun hr => by cases hr⟩
    have := hi.kept c hc
    cases c with
    | clause c => exact this.imp id (h1 _)
    | weight t l w b ty => exact this.imp id (Or.imp id (Or.imp id (h1 _)))
    | _ => trivial
  | true =>
    change ((ICreator.commitWeights accept ic.weights lq) >>= fun p => _) = _ at h
    cases hw : ICreator.commitWeights accept ic.weights lq with
    | error e => rw [hw] at h; cases h
    | ok p =>
      obtain ⟨rw', lw⟩ := p
      rw [hw] at h
      obtain ⟨g1, g2, g3, g4⟩ := commitWeights_spec accept β k _ _ _ _ hw
      have hst' : ∀ e ∈ lw, stems added e := fun e he => by
        rcases g2 e he with h | ⟨l, w, b, ty, hc, rfl⟩
        · exact hst e h
        · obtain ⟨t, ht⟩ := hi.weights _ _ _ _ hc
          refine ⟨t, ?_⟩
          rw [Int.neg_neg, Int.neg_neg, Int.add_sub_cancel]; exact ht
      have hcl' : ∀ c, c ∈ C → IEv.clause c ∈ lw := fun c hc => g1 _ (h3 rfl c hc)
      cases rw' with
      | false =>
        injection h with h; injection h with e1 h; injection h with e2 e3
        subst e1; subst e2; subst e3
        refine ⟨⟨[], rfl, by simp, hi.weights, hst', fun c hc => ?_, by rw [g4, show iCost β k lq = _ from h4]; exact hi.cost⟩, fun hr => by cases hr⟩
        have := hi.kept c hc
        cases c with
        | clause c => exact Or.inr (this.elim (hcl' c) (fun h => g1 _ (h1 _ h)))
        | weight t l w b ty => exact this.imp id (Or.imp id (Or.imp id (fun h => g1 _ (h1 _ h))))
        | _ => trivial
      | true =>
        injection h with h; injection h with e1 h; injection h with e2 e3
        subst e1; subst e2; subst e3
        have hall : IInv β k added [] { ic with clauses := [], weights := [], minimize := [] }
            ((ic.minimize.map (fun m => IEv.minimize m.1 m.2.1 m.2.2)).reverse ++ lw) := by
          refine ⟨rfl, by simp, fun _ _ _ _ h => (by cases h), fun e he => ?_, fun c hc => ?_, ?_⟩
          · rcases List.mem_append.mp he with h | h
            · obtain ⟨m, _, rfl⟩ := List.mem_map.mp (List.mem_reverse.mp h)
              trivial
            · exact hst' e h
          · have := hi.kept c hc
            cases c with
            | clause c => exact Or.inr (List.mem_append_right _ (this.elim (hcl' c) (fun h => g1 _ (h1 _ h))))
            | weight t l w b ty =>
              rcases this with h | h | h | h
              · exact Or.inl h
              · exact Or.inr (Or.inl h)
              · exact Or.inr (Or.inr (Or.inr (List.mem_append_right _ (g3 rfl _ _ _ _ h))))
              · exact Or.inr (Or.inr (Or.inr (List.mem_append_right _ (g1 _ (h1 _ h)))))
            | _ => trivial
          · rw [iCost_append, iCost_reverse, g4, show iCost β k lq = _ from h4, ← hi.cost]
            simp only [pendCost, List.map_nil, iCost]
            omega
        exact ⟨⟨[], hall⟩, fun _ => ⟨hall, rfl, rfl⟩⟩

/-- Adding something preserves the invariant. -/
theorem exec_inv {β : Nat → Bool} {k : Int} {added : List ICall} {C : List (List Lit)} {ic : ICreator} {log : List IEv}
    (hi : IInv β k added C ic log) {x : ICall} (hp : callProper x) {r : Bool} {s : ICreator × List IEv}
    (h : x.exec (ic, log) = .ok (r, s)) : ∃ C', IInv β k (added ++ [x]) C' s.1 s.2 := by
  obtain ⟨ic', log'⟩ := s
  have mono : ∀ {C' : List (List Lit)} {ic' : ICreator} {log' : List IEv}, IInv β k added C' ic' log' → callCost β k [x] = 0 → kept C' ic' log' x →
      IInv β k (added ++ [x]) C' ic' log' := by
    intro C' ic' log' hi hx hk
    refine ⟨hi.flat, fun c hc => ⟨(hi.nz c hc).1, List.mem_append_left _ (hi.nz c hc).2⟩, fun l w b t h => ?_, fun e he => stems_mono x (hi.stems e he),
      fun c hc => ?_, by rw [callCost_append, hx, hi.cost]; omega⟩
    · obtain ⟨t', h⟩ := hi.weights l w b t h; exact ⟨t', List.mem_append_left _ h⟩
    · rcases List.mem_append.mp hc with h | h
      · exact hi.kept c h
      · rw [List.mem_singleton.mp h]; exact hk
  cases x with
  | clause c =>
    injection h with h; injection h with _ h; injection h with e1 e2; subst e1; subst e2
    refine ⟨C ++ [c], by simp [ICreator.addClause, hi.flat, flat], fun d hd => ?_, fun l w b t h => ?_, fun e he => stems_mono _ (hi.stems e he), fun d hd => ?_,
      by rw [callCost_append, ← hi.cost]; simp [callCost, ICreator.addClause]⟩
    · rcases List.mem_append.mp hd with h | h
      · exact ⟨(hi.nz d h).1, List.mem_append_left _ (hi.nz d h).2⟩
      · rw [List.mem_singleton.mp h]; exact ⟨hp, by simp⟩
    · obtain ⟨t', h⟩ := hi.weights l w b t h; exact ⟨t', List.mem_append_left _ h⟩
    · rcases List.mem_append.mp hd with h | h
      · have := hi.kept d h
        cases d with
        | clause d => exact this.imp (List.mem_append_left _) id
        | weight t l w b ty => exact this
        | _ => trivial
      · rw [List.mem_singleton.mp h]; exact Or.inl (by simp)
  | weight t l w b ty =>
    injection h with h; injection h with _ h; injection h with e1 e2; subst e1; subst e2
    unfold ICreator.addWeight
    by_cases h1 : t = some true ∧ ty < 0
    · rw [if_pos h1]; exact ⟨C, mono hi rfl (Or.inl h1)⟩
    · rw [if_neg h1]
      by_cases h2 : t = some false ∧ ty > 0
      · rw [if_pos h2]; exact ⟨C, mono hi rfl (Or.inr (Or.inl h2))⟩
      · rw [if_neg h2]
        refine ⟨C, hi.flat, fun c hc => ⟨(hi.nz c hc).1, List.mem_append_left _ (hi.nz c hc).2⟩, fun l' w' b' ty' h => ?_, fun e he => stems_mono _ (hi.stems e he),
          fun d hd => ?_, by rw [callCost_append, ← hi.cost]; simp [callCost]⟩
        · rcases List.mem_append.mp h with h | h
          · obtain ⟨t', h⟩ := hi.weights l' w' b' ty' h; exact ⟨t', List.mem_append_left _ h⟩
          · rcases List.mem_singleton.mp h with ⟨⟩
            exact ⟨t, by simp⟩
        · rcases List.mem_append.mp hd with h | h
          · have := hi.kept d h
            cases d with
            | clause d => exact this
            | weight t l w b ty => exact this.imp id (Or.imp id (Or.imp (List.mem_append_left _) id))
            | _ => trivial
          · rw [List.mem_singleton.mp h]; exact Or.inr (Or.inr (Or.inl (by simp)))
  | minimize l w j =>
    injection h with h; injection h with _ h; injection h with e1 e2; subst e1; subst e2
    refine ⟨C, hi.flat, fun c hc => ⟨(hi.nz c hc).1, List.mem_append_left _ (hi.nz c hc).2⟩, fun l w b t h => ?_, fun e he => stems_mono _ (hi.stems e he), fun d hd => ?_, ?_⟩
    · obtain ⟨t', h⟩ := hi.weights l w b t h; exact ⟨t', List.mem_append_left _ h⟩
    · rcases List.mem_append.mp hd with h | h
      · have := hi.kept d h
        cases d with
        | clause d => exact this
        | weight t l w b ty => exact this
        | _ => trivial
      · rw [List.mem_singleton.mp h]; trivial
    · rw [callCost_append, ← hi.cost]
      simp only [ICreator.addMinimize, pendCost, List.map_append, iCost_append, List.map_cons, List.map_nil, iCost, callCost]
      omega
  | setState b =>
    injection h with h; injection h with _ h; injection h with e1 e2; subst e1; subst e2
    exact ⟨C, mono ⟨hi.flat, hi.nz, hi.weights, hi.stems, fun c hc => by
      have := hi.kept c hc
      cases c with
      | clause d => exact this
      | weight t l w b ty => exact this
      | _ => trivial, hi.cost⟩ rfl trivial⟩
  | commit a =>
    obtain ⟨⟨C', h'⟩, _⟩ := commit_inv hi h
    exact ⟨C', mono h' rfl trivial⟩

theorem run_inv {β : Nat → Bool} {k : Int} : ∀ (xs : List ICall) {added : List ICall} {C : List (List Lit)} {s : ICreator × List IEv} {r0 : Bool}
    {r : Bool} {s' : ICreator × List IEv}, IInv β k added C s.1 s.2 → (∀ x ∈ xs, callProper x) → ICall.run xs r0 s = .ok (r, s') →
    ∃ C', IInv β k (added ++ xs) C' s'.1 s'.2
  | [], added, C, s, r0, r, s', hi, _, h => by
    injection h with h; injection h with _ h; subst h
    exact ⟨C, by simpa using hi⟩
  | x :: xs, added, C, s, r0, r, s', hi, hp, h => by
    unfold ICall.run at h
    cases he : x.exec s with
    | error e => rw [he] at h; cases h
    | ok p =>
      rw [he] at h
      obtain ⟨C', h'⟩ := exec_inv (s := p.2) hi (hp x (by simp)) (show x.exec (s.1, s.2) = .ok (p.1, p.2) from he)
      obtain ⟨C'', h''⟩ := run_inv xs h' (fun y hy => hp y (by simp [hy])) h
      exact ⟨C'', by simpa using h''⟩

theorem run_append : ∀ (xs ys : List ICall) (r : Bool) (s : ICreator × List IEv),
    ICall.run (xs ++ ys) r s = (ICall.run xs r s >>= fun p => ICall.run ys p.1 p.2)
  | [], ys, r, s => rfl
  | x :: xs, ys, r, s => by
    simp only [List.cons_append, ICall.run]
    cases x.exec s with
    | error e => rfl
    | ok p => exact run_append xs ys p.1 p.2

theorem empty_inv (β : Nat → Bool) (k : Int) : IInv β k [] [] {} [] := ⟨rfl, by simp, by simp, by simp, by simp, rfl⟩

/-- C39: whatever has been passed to clingo follows from what was added, even if clingo rejected something. -/
theorem C39_commit_sound (β : Nat → Bool) (xs : List ICall) (hp : ∀ x ∈ xs, callProper x) {r : Bool} {ic : ICreator} {log : List IEv}
    (h : ICall.run xs true ({}, []) = .ok (r, ic, log)) (hb : ∀ x ∈ xs, callHolds β x) : ∀ e ∈ log, iHolds β e := by
  intro e he
  obtain ⟨C, hi⟩ := run_inv (β := β) (k := 0) xs (empty_inv β 0) hp h
  rw [List.nil_append] at hi
  have := hi.stems e he
  cases e with
  | clause c => exact hb _ this
  | weight l w b ty =>
    obtain ⟨t, ht⟩ := this
    have := (C39_direction β (-l) (hp _ ht) w (b - 1) (-ty)).mpr (hb _ ht)
    simpa using this
  | minimize => trivial

/-- C39: after a successful commit everything that was added has been passed to clingo. Weight constraints
are dropped only if they hold because of the truth value of their literal; the objective is the same, each
of its literals being passed exactly once. -/
theorem C39_commit_complete (β : Nat → Bool) (xs : List ICall) (hp : ∀ x ∈ xs, callProper x) (accept : List IEv → Bool) {ic : ICreator} {log : List IEv}
    (h : ICall.run (xs ++ [.commit accept]) true ({}, []) = .ok (true, ic, log)) :
    ((∀ e ∈ log, iHolds β e) → ∀ x ∈ xs, callAgrees β x → callHolds β x) ∧ ∀ level, iCost β level log = callCost β level xs := by
  rw [run_append] at h
  cases hr : ICall.run xs true ({}, []) with
  | error e => rw [hr] at h; cases h
  | ok p =>
    rw [hr] at h
    have hc : p.2.1.commit accept p.2.2 = .ok (true, ic, log) := by
      change (ICall.run [.commit accept] p.1 p.2) = _ at h
      unfold ICall.run at h
      cases hx : (ICall.commit accept).exec p.2 with
      | error e => rw [hx] at h; cases h
      | ok q =>
        rw [hx] at h
        injection h with h
        rw [show p.2.1.commit accept p.2.2 = (ICall.commit accept).exec p.2 from rfl, hx]
        exact congrArg _ h
    have key : ∀ k, IInv β k xs [] ic log ∧ ic.weights = [] ∧ ic.minimize = [] := fun k => by
      obtain ⟨C, hi⟩ := run_inv (β := β) (k := k) xs (empty_inv β k) hp (show ICall.run xs true ({}, []) = .ok (p.1, p.2) from hr)
      rw [List.nil_append] at hi
      exact (commit_inv hi hc).2 rfl
    refine ⟨fun hl x hx ha => ?_, fun k => ?_⟩
    · obtain ⟨hi, hw, _⟩ := key 0
      have hk := hi.kept x hx
      cases x with
      | clause c =>
        rcases hk with hk | hk
        · cases hk
        · exact hl _ hk
      | weight t l w b ty =>
        rcases hk with ⟨h1, h2⟩ | ⟨h1, h2⟩ | hk | hk
        · exact ⟨fun h => absurd h (by omega), fun _ _ => ha.1 h1⟩
        · exact ⟨fun _ h => absurd h (ha.2 h1), fun h => absurd h (by omega)⟩
        · rw [hw] at hk; cases hk
        · exact (C39_direction β l (hp _ hx) w b ty).mp (hl _ hk)
      | _ => trivial
    · obtain ⟨hi, _, hm⟩ := key k
      have := hi.cost
      rw [hm] at this
      simpa [pendCost, iCost] using this

theorem commitClauses_total (accept : List IEv → Bool) : ∀ (ls cur : List Lit) (log : List IEv), (ls = [] → cur = []) →
    (∀ l, ls.getLast? = some l → l = 0) → ∃ p, ICreator.commitClauses accept ls cur log = .ok p
  | [], cur, log, h, _ => by rw [h rfl]; exact ⟨_, rfl⟩
  | l :: ls, cur, log, _, h => by
    have h' : ∀ l, ls.getLast? = some l → l = 0 := fun k hk => h k (by
      cases ls with
      | nil => cases hk
      | cons a as => rw [List.getLast?_cons_cons]; exact hk)
    unfold ICreator.commitClauses
    split
    · split
      · exact commitClauses_total accept ls [] _ (fun _ => rfl) h'
      · exact ⟨_, rfl⟩
    · rename_i hl
      exact commitClauses_total accept ls _ _ (fun e => by subst e; exact absurd (h l rfl) hl) h'

theorem commitWeights_total (accept : List IEv → Bool) : ∀ (ws : List (Lit × List (Lit × Int) × Int × Int)) (log : List IEv),
    (∀ x ∈ ws, Limits.val.min ≤ x.2.2.1 ∧ x.2.2.1 < Limits.val.max) → ∃ p, ICreator.commitWeights accept ws log = .ok p
  | [], log, _ => ⟨_, rfl⟩
  | (l, w, b, ty) :: ws, log, h => by
    have hb := h (l, w, b, ty) (by simp)
    have hb : Limits.val.min ≤ b + 1 ∧ b + 1 ≤ Limits.val.max := ⟨by have := hb.1; simp only at this; omega, by have := hb.2; simp only at this; omega⟩
    unfold ICreator.commitWeights mAdd machine
    rw [if_pos hb]
    change ∃ p, (if accept (.weight (-l) w (b + 1) (-ty) :: log) = true then _ else _) = _
    split
    · exact commitWeights_total accept ws _ (fun x hx => h x (by simp [hx]))
    · exact ⟨_, rfl⟩

/-- The vector of clauses ends with a zero and bounds of weight constraints are below the maximum. -/
def ICreator.ready (ic : ICreator) : Prop :=
  (∀ l, ic.clauses.getLast? = some l → l = 0) ∧ ∀ x ∈ ic.weights, Limits.val.min ≤ x.2.2.1 ∧ x.2.2.1 < Limits.val.max

theorem exec_total (x : ICall) (hx : ∀ t l w b ty, x = ICall.weight t l w b ty → Limits.val.min ≤ b ∧ b < Limits.val.max)
    (s : ICreator × List IEv) (hs : ICreator.ready s.1) : ∃ p, x.exec s = .ok p ∧ ICreator.ready p.2.1 := by
  obtain ⟨ic, log⟩ := s
  cases x with
  | clause c => exact ⟨_, rfl, fun l hl => by simpa [ICreator.addClause] using hl.symm, hs.2⟩
  | weight t l w b ty =>
    refine ⟨_, rfl, ?_⟩
    simp only [ICreator.addWeight]
    split
    · exact hs
    · split
      · exact hs
      · refine ⟨hs.1, fun x hx' => ?_⟩
        rcases List.mem_append.mp hx' with h | h
        · exact hs.2 x h
        · rw [List.mem_singleton.mp h]; exact hx t l w b ty rfl
  | minimize l w k => exact ⟨_, rfl, hs⟩
  | setState b => exact ⟨_, rfl, hs⟩
  | commit accept =>
    simp only [ICall.exec, ICreator.commit]
    obtain ⟨⟨r, lq⟩, h1⟩ := commitClauses_total accept ic.clauses [] log (fun _ => rfl) hs.1
    rw [h1]
    cases r with
    | false => exact ⟨_, rfl, hs⟩
    | true =>
      obtain ⟨⟨r, lw⟩, h2⟩ := commitWeights_total accept ic.weights lq hs.2
      change ∃ p, ((ICreator.commitWeights accept ic.weights lq) >>= fun p => _) = _ ∧ _
      rw [h2]
      cases r with
      | false => exact ⟨_, rfl, fun l hl => (by cases hl), hs.2⟩
      | true => exact ⟨_, rfl, fun l hl => (by cases hl), fun x hx => (by cases hx)⟩

/-- C39: neither committing nor adding is undefined as long as the bounds of weight constraints are below the
maximum (which `weight_translate_` checks, constraints.cc:521-524). -/
theorem C39_commit_defined (xs : List ICall) (hb : ∀ t l w b ty, ICall.weight t l w b ty ∈ xs → Limits.val.min ≤ b ∧ b < Limits.val.max) :
    ∃ p, ICall.run xs true ({}, []) = .ok p := by
  have key : ∀ (xs : List ICall) (r : Bool) (s : ICreator × List IEv), (∀ t l w b ty, ICall.weight t l w b ty ∈ xs → Limits.val.min ≤ b ∧ b < Limits.val.max) →
      ICreator.ready s.1 → ∃ p, ICall.run xs r s = .ok p := by
    intro xs
    induction xs with
    | nil => intro r s _ _; exact ⟨_, rfl⟩
    | cons x xs ih =>
      intro r s hb hs
      obtain ⟨p, h1, h2⟩ := exec_total x (fun t l w b ty e => hb t l w b ty (by simp [e])) s hs
      unfold ICall.run
      rw [h1]
      exact ih p.1 p.2 (fun t l w b ty h => hb t l w b ty (by simp [h])) h2
  exact key xs true _ hb ⟨fun l hl => (by cases hl), fun x hx => (by cases hx)⟩

theorem commit_stats {accept : List IEv → Bool} {ic ic' : ICreator} {log log' : List IEv} {r : Bool} (h : ic.commit accept log = .ok (r, ic', log')) :
    ic'.numClauses = ic.numClauses ∧ ic'.translateClauses = ic.translateClauses ∧ ic'.translate = ic.translate := by
  unfold ICreator.commit at h
  cases h1 : ICreator.commitClauses accept ic.clauses [] log with
  | error e => rw [h1] at h; cases h
  | ok p =>
    rw [h1] at h
    obtain ⟨b, lq⟩ := p
    cases b with
    | false => injection h with h; injection h with _ h; injection h with h _; subst h; exact ⟨rfl, rfl, rfl⟩
    | true =>
      change ((ICreator.commitWeights accept ic.weights lq) >>= fun p => _) = _ at h
      cases h2 : ICreator.commitWeights accept ic.weights lq with
      | error e => rw [h2] at h; cases h
      | ok p =>
        rw [h2] at h
        obtain ⟨b, lw⟩ := p
        cases b <;> (injection h with h; injection h with _ h; injection h with h _; subst h; exact ⟨rfl, rfl, rfl⟩)

/-- C39: the statistics count the clauses added, and those added in the state for translation. -/
theorem C39_statistics : ∀ (xs : List ICall) {r r' : Bool} {s s' : ICreator × List IEv}, ICall.run xs r s = .ok (r', s') →
    s'.1.numClauses = s.1.numClauses + callClauses xs ∧ s'.1.translateClauses = s.1.translateClauses + translatedClauses s.1.translate xs
  | [], r, r', s, s', h => by injection h with h; injection h with _ h; subst h; exact ⟨rfl, rfl⟩
  | x :: xs, r, r', s, s', h => by
    unfold ICall.run at h
    cases he : x.exec s with
    | error e => rw [he] at h; cases h
    | ok p =>
      rw [he] at h
      obtain ⟨r1, s1⟩ := p
      obtain ⟨i1, i2⟩ := C39_statistics xs h
      obtain ⟨ic, log⟩ := s
      rw [i1, i2]
      cases x with
      | clause c =>
        injection he with he; injection he with _ he; subst he
        simp only [ICreator.addClause, callClauses, translatedClauses]
        constructor
        · omega
        · split <;> omega
      | weight t l w b ty =>
        injection he with he; injection he with _ he; subst he
        simp only [ICreator.addWeight, callClauses, translatedClauses]
        split
        · exact ⟨rfl, rfl⟩
        · split <;> exact ⟨rfl, rfl⟩
      | minimize l w k => injection he with he; injection he with _ he; subst he; exact ⟨rfl, rfl⟩
      | setState b => injection he with he; injection he with _ he; subst he; exact ⟨rfl, rfl⟩
      | commit a =>
        obtain ⟨ic1, log1⟩ := s1
        obtain ⟨e1, e2, e3⟩ := commit_stats (show ic.commit a log = .ok (r1, ic1, log1) from he)
        simp only [e1, e2, e3, callClauses, translatedClauses]
        exact ⟨trivial, trivial⟩

/-! ### Concrete cases -/

/-- Two clauses, a weight constraint, an objective literal, and a second commit. -/
def someCalls : List ICall :=
  [.clause [2, -3], .clause [4], .weight none 5 [(2, 1), (3, 2)] 2 1, .weight (some true) 6 [(2, 1)] 0 (-1), .minimize 2 7 0,
   .commit (fun _ => true), .setState true, .clause [-2], .commit (fun _ => true)]

example : (ICall.run someCalls true ({}, [])).toOption = some (true, { translate := true, numClauses := 3, translateClauses := 1 },
    [.clause [-2], .minimize 2 7 0, .weight (-5) [(2, 1), (3, 2)] 3 (-1), .clause [4], .clause [2, -3]]) := by decide

example : (∀ x ∈ someCalls, callProper x) ∧ (∀ x ∈ someCalls, callAgrees (fun n => n == 4 || n == 6) x) ∧
    (∀ x ∈ someCalls, callHolds (fun n => n == 4 || n == 6) x) ∧ ¬ (∀ x ∈ someCalls, callHolds (fun _ => true) x) := by
  simp [someCalls, callProper, callAgrees, callHolds, litTrue]

end Clingcon.Props
