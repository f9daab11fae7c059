import Verif.Model.Run
import Verif.Proof.Base
import Verif.Proof.NewOps

/-! The invariant of the bookkeeping for sequences of calls. -/
set_option linter.unusedSimpArgs false
namespace Clingcon
open Spec VarState

variable {α : Type} {W W' : World} {L : List Lvl} {A : (Nat → Nat → Int) × (Nat → Nat → Int) × Nat}

theorem BI.other {vs : List VarState} {b : Book} (h : BI (vs, b)) {sl t ml : Nat} {mb : Option Int} :
    BI (vs, { b with splitLast := sl, trailOffset := t, minimizeBound := mb, minimizeLevel := ml }) :=
  ⟨h.lenW, h.lenL, h.lenU, h.dec, h.cutL, h.cutU, h.cutI, h.cutR, h.low, h.upp, h.inac, h.inac', h.track, h.todo, h.rngW, h.rngR, h.rngI, h.rngT⟩

/-- Changes of the parts of the bookkeeping the invariant does not talk about. -/
theorem keep_other {f : World → World}
    (hf : ∀ W, ∃ sl t ml mb, frame (f W) = ((frame W).1, { W.book with splitLast := sl, trailOffset := t, minimizeBound := mb, minimizeLevel := ml })) :
    Keep (At L A) (modify f : SM Unit) := by
  refine ⟨fun W a W' h ha => ?_⟩
  obtain rfl := modify_iff.mp h
  obtain ⟨sl, t, ml, mb, e⟩ := hf W
  refine ha.book ?_ ?_ ?_
  · rw [e]; exact BI.other ha.bi
  · rw [e]
  · rw [e]; rfl

theorem keep_marks {f : World → Book} (hf : ∀ W, MarkEff W.book (f W)) : Keep (At L A) (modify (fun W => { W with book := f W }) : SM Unit) := by
  refine ⟨fun W a W' h ha => ?_⟩
  obtain rfl := modify_iff.mp h
  refine ha.book ?_ rfl ?_
  · exact ha.bi.mark (hf W)
  · show (f W).levels = W.book.levels
    rw [(hf W).rest]

theorem keep_propagateLit {cc : CC} {lit : Int} : Keep (At L A) (propagateLit cc lit) := by
  unfold propagateLit
  exact Keep.bind (keep_marks (fun W => markTodos_eff _ _)) (fun _ => keep_updateDomain)
macro_rules | `(tactic| keep_step) => `(tactic| with_reducible exact keep_propagateLit)

theorem keep_propagateLits {cc : CC} {ls : List Int} : Keep (At L A) (propagateLits cc ls) := by
  induction ls with
  | nil => exact Keep.fr Fr.pure
  | cons l ls ih => unfold propagateLits; keep_auto
macro_rules | `(tactic| keep_step) => `(tactic| with_reducible exact keep_propagateLits)

theorem keep_solverCheck {cc : CC} {ck : Bool} {n : Nat} : Keep (At L A) (solverCheck cc ck n) := ⟨fun _ _ _ h ha => (solverCheck_eff h ha).1⟩
macro_rules | `(tactic| keep_step) => `(tactic| with_reducible exact keep_solverCheck)

theorem fr_splitVar {cc : CC} {v : Nat} : Fr (splitVar cc v) := by unfold splitVar; fr_auto
macro_rules | `(tactic| fr_step) => `(tactic| with_reducible exact fr_splitVar)
theorem fr_splitEach {cc : CC} {vs : List Nat} : Fr (splitEach cc vs) := by
  induction vs with
  | nil => exact Fr.pure
  | cons v vs ih => unfold splitEach; fr_auto
macro_rules | `(tactic| fr_step) => `(tactic| with_reducible exact fr_splitEach)
theorem keep_splitFirst {cc : CC} {vs : List Nat} : Keep (At L A) (splitFirst cc vs) := by
  induction vs with
  | nil => exact Keep.fr Fr.pure
  | cons v vs ih =>
    unfold splitFirst
    have : ∀ v, Keep (At L A) (modify (fun W : World => { W with book.splitLast := v }) : SM Unit) :=
      fun v => keep_other (fun W => ⟨v, W.book.trailOffset, W.book.minimizeLevel, W.book.minimizeBound, rfl⟩)
    have := this v
    keep_auto
macro_rules | `(tactic| keep_step) => `(tactic| with_reducible exact keep_splitFirst)
theorem fr_checkValue {es : List (Int × Nat)} : Fr (checkValue es) := by
  induction es with
  | nil => exact Fr.pure
  | cons e es ih => unfold checkValue; fr_auto
macro_rules | `(tactic| fr_step) => `(tactic| with_reducible exact fr_checkValue)
theorem fr_sumCheckFull {c : CState} {r : Int} {es : List (Int × Nat)} : Fr (sumCheckFull c r es) := by unfold sumCheckFull; fr_auto
macro_rules | `(tactic| fr_step) => `(tactic| with_reducible exact fr_sumCheckFull)
theorem fr_distinctCheckFull {es : List (List (Int × Nat) × Int)} : ∀ {vs : List Int}, Fr (distinctCheckFull es vs) := by
  induction es with
  | nil => intro vs; exact Fr.pure
  | cons e es ih => intro vs; unfold distinctCheckFull; fr_auto; exact ih
macro_rules | `(tactic| fr_step) => `(tactic| with_reducible exact fr_distinctCheckFull)
theorem fr_disjointCheckFull {es : List (Int × Nat)} : ∀ {s : IntervalSet}, Fr (disjointCheckFull es s) := by
  induction es with
  | nil => intro vs; exact Fr.pure
  | cons e es ih => intro vs; unfold disjointCheckFull; fr_auto; exact ih
macro_rules | `(tactic| fr_step) => `(tactic| with_reducible exact fr_disjointCheckFull)
theorem fr_nonlinearCheckFull {ca cb r : Int} {x y z : Nat} : Fr (nonlinearCheckFull ca x y cb z r) := by unfold nonlinearCheckFull; fr_auto
macro_rules | `(tactic| fr_step) => `(tactic| with_reducible exact fr_nonlinearCheckFull)
theorem fr_checkFullCS {c : CState} : Fr (checkFullCS c) := by unfold checkFullCS; fr_auto
macro_rules | `(tactic| fr_step) => `(tactic| with_reducible exact fr_checkFullCS)
theorem fr_checkSolution {cc : CC} {cs : List CState} : Fr (checkSolution cc cs) := by
  induction cs with
  | nil => exact Fr.pure
  | cons c cs ih => unfold checkSolution; fr_auto
macro_rules | `(tactic| fr_step) => `(tactic| with_reducible exact fr_checkSolution)

theorem keep_solverCheckFull {cc : CC} {b : Bool} : Keep (At L A) (solverCheckFull cc b) := by unfold solverCheckFull; keep_auto
theorem fr_solverDecide {cc : CC} {l : Int} : Fr (solverDecide cc l) := by unfold solverDecide; fr_auto

theorem fr_takeUpper {cc : CC} {v : Nat} {o : VarState} : Fr (takeUpper cc v o) := by unfold takeUpper; fr_auto
macro_rules | `(tactic| fr_step) => `(tactic| with_reducible exact fr_takeUpper)
theorem fr_takeLower {cc : CC} {v : Nat} {o : VarState} : Fr (takeLower cc v o) := by unfold takeLower; fr_auto
macro_rules | `(tactic| fr_step) => `(tactic| with_reducible exact fr_takeLower)
theorem fr_takeBounds {cc : CC} {os : List VarState} : ∀ {v : Nat}, Fr (takeBounds cc v os) := by
  induction os with
  | nil => intro v; exact Fr.pure
  | cons o os ih => intro v; unfold takeBounds; fr_auto; exact ih
macro_rules | `(tactic| fr_step) => `(tactic| with_reducible exact fr_takeBounds)
theorem keep_updateBounds {cc : CC} {os : List VarState} {b : Bool} {n : Nat} : Keep (At L A) (updateBounds cc os b n) := by
  unfold updateBounds; keep_auto

theorem keep_solverUpdate {n : Nat} : Keep (At L A) (solverUpdate n) := by
  unfold solverUpdate
  refine Keep.bind (keep_other (fun W => ⟨W.book.splitLast, W.book.trailOffset, 0, none, rfl⟩)) (fun _ => ?_)
  refine Keep.fr ?_
  fr_auto

theorem updateMinimize_eff {b : Book} {n l : Nat} {x : Int} {vs : List VarState} (h : BI (vs, b)) :
    BI (vs, b.updateMinimize n l x) ∧ (b.updateMinimize n l x).levels = b.levels := by
  have key : ∀ b' : Book, MarkEff b' (b'.markTodo n) ∧ (b'.markTodo n).levels = b'.levels := by
    intro b'
    have := markTodo_eff b' n
    exact ⟨this, by rw [this.rest]⟩
  unfold Book.updateMinimize
  split_ifs
  · exact ⟨BI.mark (b := { b with minimizeBound := some x, minimizeLevel := l }) (BI.other h) (key _).1, (key _).2⟩
  · exact ⟨BI.mark (b := { b with minimizeLevel := l }) (BI.other h) (key _).1, (key _).2⟩
  · exact ⟨h, rfl⟩

theorem keep_updateMinimize {n l : Nat} {x : Int} : Keep (At L A) (modify (fun W => { W with book := W.book.updateMinimize n l x }) : SM Unit) := by
  refine ⟨fun W a W' h ha => ?_⟩
  obtain rfl := modify_iff.mp h
  exact ha.book (updateMinimize_eff ha.bi).1 rfl (updateMinimize_eff ha.bi).2

/-- How a call changes levels and recorded bounds. -/
inductive StepRel (F F' : List VarState × Book) : Prop
  | same : F'.2.levels = F.2.levels →
      (∀ l ∈ F.2.levels.head?, (0 < l.level → F'.1.length = F.1.length) ∧ ∀ k, 0 < k → k ≤ l.level → alF F' k = alF F k ∧ auF F' k = auF F k) → StepRel F F'
  | push (l : Lvl) : F'.2.levels = l :: F.2.levels → F'.1.length = F.1.length → Settled F → 0 < l.level → (∀ x ∈ F.2.levels, x.level < l.level) →
      (∀ x ∈ F.2.levels.head?, ∀ k, 0 < k → k ≤ x.level → alF F' k = alF F k ∧ auF F' k = auF F k) →
      alF F' l.level = loF F → auF F' l.level = upF F → StepRel F F'
  | pop (l : Lvl) : F.2.levels = l :: F'.2.levels → F'.1.length = F.1.length → loF F' = alF F l.level → upF F' = auF F l.level → Settled F' →
      (∀ k, k ≤ l.level → alF F' k = alF F k ∧ auF F' k = auF F k) → StepRel F F'

theorem Keep.rel {x : SM α} (h : ∀ L A, Keep (At L A) x) {a : α} (hx : x W = .ok (a, W')) (hb : BI (frame W)) : BI (frame W') ∧ StepRel (frame W) (frame W') := by
  have := (h W.book.levels (alF (frame W), auF (frame W), (frame W).1.length)).keep _ _ _ hx ⟨hb, rfl, fun _ _ _ _ _ => ⟨rfl, rfl⟩, rfl⟩
  exact ⟨this.bi, .same this.lev (fun l hl => ⟨fun _ => this.len, this.snap l hl⟩)⟩

theorem pushLevel_eff {k : Nat} {u : Unit} (h : pushLevel k W = .ok (u, W')) (hb : BI (frame W)) (hs : W.level < k → W.settled) :
    BI (frame W') ∧ StepRel (frame W) (frame W') ∧ (k ≤ W.level → W' = W) := by
  unfold pushLevel at h
  obtain ⟨l, W1, h1, h2⟩ := SM.bind_ok h
  obtain ⟨hl, rfl⟩ := curLevel_iff.mp h1
  have hlev : W1.level = l.level := by
    unfold World.level
    cases hh : W1.book.levels with
    | nil => rw [hh] at hl; cases hl
    | cons x xs => rw [hh] at hl; injection hl with hl; subst hl; rfl
  unfold whenS at h2
  split at h2
  · rename_i hlt
    have hlt : l.level < k := by simpa using hlt
    obtain rfl := modify_iff.mp h2
    obtain ⟨⟨s1, s2⟩, s3⟩ := hs (by rw [hlev]; exact hlt)
    have hall : ∀ x ∈ W1.book.levels, x.level < k := by
      intro x hx
      cases hh : W1.book.levels with
      | nil => rw [hh] at hx; cases hx
      | cons y ys =>
        rw [hh] at hl hx
        injection hl with hl; subst hl
        rcases List.mem_cons.mp hx with rfl | hx
        · exact hlt
        · have := hb.dec
          simp only [frame] at this
          rw [hh, List.map_cons, List.pairwise_cons] at this
          have := this.1 x.level (List.mem_map_of_mem hx)
          omega
    have hB := BI.push (vs := (frame W1).1) (b := W1.book) (k := k) hb ⟨s1, s2⟩ (fun n hn => by rw [s3] at hn; cases hn) hall
    obtain ⟨a1, a2⟩ := hb.above (k := k) hall
    exact ⟨hB, .push _ rfl rfl ⟨⟨s1, s2⟩, s3⟩ (by show 0 < k; omega) hall (fun _ _ _ _ _ => ⟨rfl, rfl⟩) a1 a2, fun hle => by omega⟩
  · obtain ⟨-, rfl⟩ := pure_iff.mp h2
    exact ⟨hb, .same rfl (fun _ _ => ⟨fun _ => rfl, fun _ _ _ => ⟨rfl, rfl⟩⟩), fun _ => rfl⟩

theorem StepRel.trans_same {F F1 F2 : List VarState × Book} (h : StepRel F F1) (hp : F1.2.levels.length ≥ F.2.levels.length)
    (h1 : F2.2.levels = F1.2.levels) (hn : F2.1.length = F1.1.length)
    (h2 : ∀ l ∈ F1.2.levels.head?, ∀ k, 0 < k → k ≤ l.level → alF F2 k = alF F1 k ∧ auF F2 k = auF F1 k) : StepRel F F2 := by
  cases h with
  | same e s =>
    refine .same (h1.trans e) (fun l hl => ⟨fun h0 => hn.trans ((s l hl).1 h0), fun k h0 hk => ?_⟩)
    obtain ⟨a, b⟩ := h2 l (by rw [e]; exact hl) k h0 hk
    obtain ⟨c, d⟩ := (s l hl).2 k h0 hk
    exact ⟨a.trans c, b.trans d⟩
  | push l e hn' s0 h0' hlt s t u =>
    refine .push l (h1.trans e) (hn.trans hn') s0 h0' hlt (fun x hx k h0 hk => ?_) ?_ ?_
    · have hx' : x.level < l.level := hlt x (List.mem_of_mem_head? hx)
      obtain ⟨a, b⟩ := h2 l (by rw [e]; rfl) k h0 (by omega)
      obtain ⟨c, d⟩ := s x hx k h0 hk
      exact ⟨a.trans c, b.trans d⟩
    · exact (h2 l (by rw [e]; rfl) l.level h0' (Nat.le_refl _)).1.trans t
    · exact (h2 l (by rw [e]; rfl) l.level h0' (Nat.le_refl _)).2.trans u
  | pop l e =>
    rw [e] at hp; simp at hp

theorem len_undoLowers : ∀ {vs : List Nat} {W W' : World} {u : Unit}, undoLowers vs W = .ok (u, W') → W'.vars.length = W.vars.length
  | [], W, W', u, h => by obtain ⟨-, rfl⟩ := pure_iff.mp h; rfl
  | v :: vs, W, W', u, h => by
    unfold undoLowers at h
    obtain ⟨_, W1, h1, h2⟩ := SM.bind_ok h
    rw [len_undoLowers h2]
    unfold undoLowerVar at h1
    simp only [smok] at h1
    obtain ⟨_, W2, ⟨_, rfl⟩, _, W3, ⟨_, rfl⟩, _, W4, rfl, rfl⟩ := h1
    simp

theorem len_undoUppers : ∀ {vs : List Nat} {W W' : World} {u : Unit}, undoUppers vs W = .ok (u, W') → W'.vars.length = W.vars.length
  | [], W, W', u, h => by obtain ⟨-, rfl⟩ := pure_iff.mp h; rfl
  | v :: vs, W, W', u, h => by
    unfold undoUppers at h
    obtain ⟨_, W1, h1, h2⟩ := SM.bind_ok h
    rw [len_undoUppers h2]
    unfold undoUpperVar at h1
    simp only [smok] at h1
    obtain ⟨_, W2, ⟨_, rfl⟩, _, W3, ⟨_, rfl⟩, _, W4, rfl, rfl⟩ := h1
    simp

theorem len_solverUndo {u : Unit} (h : solverUndo W = .ok (u, W')) : W'.vars.length = W.vars.length := by
  unfold solverUndo levelUndo at h
  simp only [smok] at h
  obtain ⟨l, W1, ⟨hl, rfl⟩, _, W2, ⟨hpos, rfl⟩, _, W3, h3, h⟩ := h
  obtain ⟨W4, W5, ⟨rfl, rfl⟩, _, W6, h6, _, W7, rfl, W8, W9, ⟨rfl, rfl⟩, _, W10, h10, _, W11, rfl, rfl⟩ := h3
  obtain ⟨_, W12, rfl, _, W13, ⟨-, rfl⟩, -⟩ := h
  have e1 := len_undoLowers h6
  have e2 := len_undoUppers h10
  exact e2.trans e1

theorem propagate_eff {cc : CC} {ls : List Int} {r : Bool} (h : solverPropagate cc ls W = .ok (r, W')) (hb : BI (frame W)) (hs : W.level < cc.level → W.settled) :
    BI (frame W') ∧ StepRel (frame W) (frame W') ∧ W.book.levels.length ≤ W'.book.levels.length := by
  obtain ⟨_, W1, h1, h2⟩ := SM.bind_ok h
  obtain ⟨b1, r1, -⟩ := pushLevel_eff h1 hb hs
  have := (keep_propagateLits (L := W1.book.levels) (A := (alF (frame W1), auF (frame W1), (frame W1).1.length))).keep _ _ _ h2 ⟨b1, rfl, fun _ _ _ _ _ => ⟨rfl, rfl⟩, rfl⟩
  suffices hl : W.book.levels.length ≤ W1.book.levels.length from
    ⟨this.bi, r1.trans_same hl this.lev this.len this.snap, by rw [show W'.book.levels = W1.book.levels from this.lev]; exact hl⟩
  unfold pushLevel at h1
  obtain ⟨l, W2, h3, h4⟩ := SM.bind_ok h1
  obtain ⟨hl, rfl⟩ := curLevel_iff.mp h3
  unfold whenS at h4
  split at h4
  · obtain rfl := modify_iff.mp h4
    show W2.book.levels.length ≤ (_ :: W2.book.levels).length
    simp
  · obtain ⟨-, rfl⟩ := pure_iff.mp h4
    exact Nat.le_refl _

theorem keep_propagate0 {cc : CC} (h0 : cc.level = 0) {ls : List Int} : Keep (At L A) (solverPropagate cc ls) := by
  refine ⟨fun W r W' h ha => ?_⟩
  obtain ⟨_, W1, h1, h2⟩ := SM.bind_ok h
  obtain ⟨-, -, e⟩ := pushLevel_eff h1 ha.bi (fun hlt => by omega)
  rw [e (by omega)] at h2
  exact keep_propagateLits.keep _ _ _ h2 ha

theorem keep_simplify {cc : CC} (h0 : cc.level = 0) {t : List SEv → List Int} {ck : Bool} {fuel : Nat} :
    Keep (At L A) (solverSimplify cc t ck fuel) := by
  unfold solverSimplify
  have key : ∀ n, Keep (At L A) (factLoop cc t ck fuel n) := by
    intro n
    induction n with
    | zero => exact ⟨fun _ _ _ h => by cases h⟩
    | succ n ih =>
      unfold factLoop
      have k1 : ∀ {ls : List Int}, Keep (At L A) (solverPropagate cc ls) := keep_propagate0 h0
      have k2 : ∀ k : Nat, Keep (At L A) (modify (fun W : World => { W with book.trailOffset := k }) : SM Unit) :=
        fun k => keep_other (fun W => ⟨W.book.splitLast, k, W.book.minimizeLevel, W.book.minimizeBound, rfl⟩)
      keep_auto
      · exact k1
      · exact k2 _
  exact key fuel

/-- The invariant of states. -/
structure WI (W : World) : Prop where
  bi : BI (frame W)
  base : W.book.levels.getLast? = some baseLvl

theorem WI.levels (h : WI W) (hl : W.book.levels.length = 1) : W.book.levels = [baseLvl] := by
  have := h.base
  match hh : W.book.levels with
  | [] => rw [hh] at hl; cases hl
  | [x] => rw [hh] at this; injection this with this; exact congrArg (fun a => [a]) this
  | x :: y :: zs => rw [hh] at hl; simp at hl

theorem WI.b0 (h : WI W) (hl : W.book.levels.length = 1) : B0 (frame W) := h.bi.base (h.levels hl)

theorem StepRel.base {F F' : List VarState × Book} (h : StepRel F F') (hb : F.2.levels.getLast? = some baseLvl) (hne : F'.2.levels ≠ []) :
    F'.2.levels.getLast? = some baseLvl := by
  cases h with
  | same e => rw [e]; exact hb
  | push l e => rw [e, List.getLast?_cons]; rw [hb]; rfl
  | pop l e =>
    rw [e] at hb
    rw [List.getLast?_cons] at hb
    cases hg : F'.2.levels.getLast? with
    | none => exact absurd (List.getLast?_eq_none_iff.mp hg) hne
    | some x => rw [hg] at hb; exact hb

theorem top_same {F F' : List VarState × Book} (hl : F.2.levels = [baseLvl]) (h' : B0 F') : StepRel F F' := by
  refine .same (h'.lev.trans hl.symm) (fun l hl' => ?_)
  rw [hl] at hl'; injection hl' with hl'; subst hl'
  exact ⟨fun h => absurd h (Nat.lt_irrefl 0), fun k h0 hk => absurd (Nat.lt_of_lt_of_le h0 hk) (Nat.lt_irrefl 0)⟩

theorem B0.enable (h : B0 (frame W)) : B0 (frame { W with book := { W.book with translateMinimize := true } }) := by
  obtain ⟨a1, a2, a3, a4, a5, a6, a7, a8, a9, a10, a11, a12, a13, a14, a15, a16, a17, a18, a19, a20⟩ := h
  exact ⟨a1, a2, a3, a4, a5, a6, a7, a8, a9, a10, a11, a12, a13, a14, a15, a16, a17, a18, a19, a20⟩

/-- Each call keeps the invariant, and it opens or closes at most one level. -/
theorem step_eff {op : Op} {r : Bool} (hp : op.pre W) (h : op.exec W = .ok (r, W')) (hi : WI W) : WI W' ∧ StepRel (frame W) (frame W') := by
  suffices hs : BI (frame W') ∧ StepRel (frame W) (frame W') ∧ W'.book.levels ≠ [] from ⟨⟨hs.1, hs.2.1.base hi.base hs.2.2⟩, hs.2.1⟩
  have hne : W.book.levels ≠ [] := by
    intro e
    have := hi.base
    rw [e] at this; cases this
  have kp : ∀ {α : Type} {x : SM α} {a : α} {W' : World}, (∀ L A, Keep (At L A) x) → x W = .ok (a, W') → BI (frame W') ∧ StepRel (frame W) (frame W') ∧ W'.book.levels ≠ [] := by
    intro α x a W' hk hx
    obtain ⟨h1, h2⟩ := Keep.rel hk hx hi.bi
    have := (hk W.book.levels (alF (frame W), auF (frame W), (frame W).1.length)).keep _ _ _ hx ⟨hi.bi, rfl, fun _ _ _ _ _ => ⟨rfl, rfl⟩, rfl⟩
    refine ⟨h1, h2, ?_⟩
    have : W'.book.levels = W.book.levels := this.lev
    rw [this]; exact hne
  have top : ∀ {W' : World}, W.book.levels.length = 1 → B0 (frame W') → BI (frame W') ∧ StepRel (frame W) (frame W') ∧ W'.book.levels ≠ [] := by
    intro W' hl hb
    refine ⟨hb.bi, top_same (hi.levels hl) hb, ?_⟩
    have : W'.book.levels = _ := hb.lev
    rw [this]; simp
  cases op with
  | addVar lo hi' =>
    obtain ⟨_, W1, h1, h2⟩ := SM.bind_ok h
    obtain ⟨-, rfl⟩ := pure_iff.mp h2
    obtain ⟨v, h3⟩ := discard_iff.mp h1
    exact top hp.1 ((hi.b0 hp.1).addVar h3).1
  | enable => rw [(enable_iff.mp h).2]; exact top hp (hi.b0 hp).enable
  | fresh => exact kp (fun L A => Keep.fr fr_fresh) h
  | post e => exact kp (fun L A => Keep.fr fr_post) h
  | literal cc v x => exact kp (fun L A => Keep.bind (Keep.discard (Keep.fr fr_getLiteral)) (fun _ => Keep.fr Fr.pure)) h
  | updLiteral cc v x t => exact kp (fun L A => Keep.bind (Keep.discard (Keep.fr fr_updateLiteral)) (fun _ => Keep.fr Fr.pure)) h
  | simple cc l co v r s => exact kp (fun L A => Keep.fr fr_addSimple) h
  | dom cc l v d => exact kp (fun L A => Keep.fr fr_addDom) h
  | addConstraint c =>
    obtain ⟨_, W1, h1, h2⟩ := SM.bind_ok h
    obtain ⟨-, rfl⟩ := pure_iff.mp h2
    obtain ⟨v, h3⟩ := discard_iff.mp h1
    exact top hp.1 ((hi.b0 hp.1).addConstraint ⟨hp.2.1, hp.2.2⟩ h3).1
  | removeConstraint n =>
    obtain ⟨_, W1, h1, h2⟩ := SM.bind_ok h
    obtain ⟨-, rfl⟩ := pure_iff.mp h2
    exact top hp ((hi.b0 hp).removeConstraint h1).1
  | removeConstraints rem =>
    obtain ⟨_, W1, h1, h2⟩ := SM.bind_ok h
    obtain ⟨-, rfl⟩ := pure_iff.mp h2
    obtain rfl := modify_iff.mp h1
    exact top hp ((hi.b0 hp).removeConstraints)
  | updateMinimize n l b => exact kp (fun L A => Keep.bind keep_updateMinimize (fun _ => Keep.fr Fr.pure)) h
  | propagate cc ls =>
    obtain ⟨h1, h2, h3⟩ := propagate_eff h hi.bi hp
    refine ⟨h1, h2, ?_⟩
    intro e
    rw [e] at h3
    exact hne (List.length_eq_zero_iff.mp (Nat.le_zero.mp h3))
  | check cc b n => exact kp (fun L A => keep_solverCheck) h
  | simplify cc t b n => exact kp (fun L A => keep_simplify hp) h
  | undo =>
    obtain ⟨_, W1, h1, h2⟩ := SM.bind_ok h
    obtain ⟨-, rfl⟩ := pure_iff.mp h2
    obtain ⟨l, ls, e1, e2, e3, e4, e5, e6, e7, e8, e9⟩ := solverUndo_eff h1 hi.bi
    refine ⟨e3, .pop l ?_ (by simpa [frame] using len_solverUndo h1) e7 e8 ⟨e5, e6⟩ e9, ?_⟩
    · show W.book.levels = l :: W'.book.levels
      rw [e1, e4]
    · intro e
      have := hi.base
      rw [e1, ← e4, e] at this
      injection this with this
      subst this
      exact absurd e2 (by decide)
  | decide cc l => exact kp (fun L A => Keep.bind (Keep.discard (Keep.fr fr_solverDecide)) (fun _ => Keep.fr Fr.pure)) h
  | checkFull cc b => exact kp (fun L A => Keep.bind keep_solverCheckFull (fun _ => Keep.fr Fr.pure)) h
  | updateBounds cc o b n => exact kp (fun L A => keep_updateBounds) h
  | update n => exact kp (fun L A => Keep.bind keep_solverUpdate (fun _ => Keep.fr Fr.pure)) h

theorem init_wi (n : Int) : WI (World.init n) := by
  refine ⟨B0.bi ?_, rfl⟩
  constructor <;> simp [frame, World.init, baseLvl, lstF, ustF, ldF, udF, wtF]

theorem run_wi {ops : List Op} : ∀ {W W' : World}, Run ops W W' → WI W → WI W'
  := by
  intro W W' h
  induction h with
  | nil => exact id
  | cons hp hx _ ih => exact fun hi => ih (step_eff hp hx hi).1

theorem Reach.wi (h : Reach W) : WI W := by
  obtain ⟨n, ops, -, h⟩ := h
  exact run_wi h (init_wi n)

theorem Run.append {ops ops' : List Op} {W W1 W2 : World} (h : Run ops W W1) (h' : Run ops' W1 W2) : Run (ops ++ ops') W W2 := by
  induction h with
  | nil => exact h'
  | cons hp hx _ ih => exact .cons hp hx (ih h')

theorem Reach.step {op : Op} {r : Bool} (h : Reach W) (hp : op.pre W) (hx : op.exec W = .ok (r, W')) : Reach W' := by
  obtain ⟨n, ops, hn, h⟩ := h
  exact ⟨n, ops ++ [op], hn, h.append (.cons hp hx (.nil _))⟩

end Clingcon
