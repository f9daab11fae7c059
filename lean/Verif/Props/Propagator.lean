import Verif.Model.Propagator
import Verif.Props.Simplify
import Mathlib.Tactic.Tauto

/-! Symbols, output, objective and statistics of the propagator (C29, C30, C40, C41, C42, C46). -/
namespace Clingcon.Props
open Clingcon Clingcon.Spec

/-- The two tables are inverse to each other and refer to existing variables. -/
structure Tables (p : PTab) : Prop where
  inv : ∀ x v, p.symMap.lookup x = some v ↔ p.varMap.lookup v = some x
  bound : ∀ e ∈ p.varMap, e.1 < p.numVars

theorem lookup_append {α β : Type} [BEq α] (k : α) : ∀ (a b : List (α × β)), (a ++ b).lookup k = (a.lookup k).or (b.lookup k)
  | [], b => by simp
  | e :: a, b => by
    rw [List.cons_append, List.lookup_cons, List.lookup_cons, lookup_append k a b]
    cases k == e.1 <;> rfl

theorem lookup_single {α β : Type} [DecidableEq α] (k a : α) (b : β) : [(a, b)].lookup k = if k = a then some b else none := by
  rw [List.lookup_cons]
  by_cases h : k = a
  · rw [if_pos h, show (k == a) = true by simpa using h]
  · rw [if_neg h, show (k == a) = false by simpa using h]; rfl

theorem mem_of_lookup {α β : Type} [BEq α] [LawfulBEq α] {k : α} {v : β} : ∀ {a : List (α × β)}, a.lookup k = some v → (k, v) ∈ a
  | [], h => by cases h
  | e :: a, h => by
    rw [List.lookup_cons] at h
    cases he : k == e.1 with
    | true =>
      rw [he] at h
      cases h
      rw [eq_of_beq he]
      exact List.mem_cons_self ..
    | false =>
      rw [he] at h
      exact List.mem_cons_of_mem _ (mem_of_lookup h)

theorem Tables.fresh {p : PTab} (h : Tables p) {v : Nat} (hv : p.numVars ≤ v) : p.varMap.lookup v = none := by
  cases hl : p.varMap.lookup v with
  | none => rfl
  | some x =>
    have := h.bound _ (mem_of_lookup hl)
    dsimp only at this
    omega

theorem addVariable_old {p : PTab} {x : Sym} {v : Nat} (h : p.symMap.lookup x = some v) : p.addVariable x = (v, p) := by
  unfold PTab.addVariable
  rw [h]

theorem addVariable_new {p : PTab} {x : Sym} (h : p.symMap.lookup x = none) : p.addVariable x =
    (p.numVars, { p with symMap := p.symMap ++ [(x, p.numVars)], varMap := p.varMap ++ [(p.numVars, x)], numVars := p.numVars + 1 }) := by
  unfold PTab.addVariable
  rw [h]

theorem Tables.exec {p : PTab} (h : Tables p) (o : PTabOp) : Tables (o.exec p) := by
  cases o with
  | var x =>
    show Tables (p.addVariable x).2
    cases hl : p.symMap.lookup x with
    | some v => rw [addVariable_old hl]; exact h
    | none =>
      rw [addVariable_new hl]
      dsimp only
      refine ⟨fun y v => ?_, ?_⟩
      · rw [lookup_append, lookup_append, lookup_single, lookup_single]
        have hn := h.fresh (Nat.le_refl p.numVars)
        have e1 := h.inv y v
        have e2 := h.inv y p.numVars
        have e3 := h.inv x v
        rw [hn] at e2
        rw [hl] at e3
        by_cases hy : y = x
        · subst hy
          rw [hl, if_pos rfl, Option.none_or]
          by_cases hv : v = p.numVars
          · subst hv; rw [hn, if_pos rfl, Option.none_or]; simp
          · rw [if_neg hv, Option.or_none]
            rw [← e3]
            simp only [Option.some.injEq, reduceCtorEq, iff_false]
            exact fun h => hv h.symm
        · rw [if_neg hy, Option.or_none]
          by_cases hv : v = p.numVars
          · subst hv
            rw [hn, if_pos rfl, Option.none_or, e2]
            simp only [Option.some.injEq, reduceCtorEq, false_iff]
            exact fun h => hy h.symm
          · rw [if_neg hv, Option.or_none]
            exact e1
      · intro e he
        rcases List.mem_append.mp he with he | he
        · exact Nat.lt_succ_of_lt (h.bound e he)
        · rw [List.mem_singleton.mp he]; exact Nat.lt_succ_self _
  | aux => exact ⟨h.inv, fun e he => Nat.lt_succ_of_lt (h.bound e he)⟩
  | «show» => exact ⟨h.inv, h.bound⟩
  | showVar v => exact ⟨h.inv, h.bound⟩
  | showSig n a => exact ⟨h.inv, h.bound⟩

theorem Tables.run {p : PTab} (h : Tables p) (ops : List PTabOp) : Tables (ptabRun ops p) := by
  induction ops generalizing p with
  | nil => exact h
  | cons o ops ih => exact ih (h.exec o)

theorem tables_init : Tables {} := ⟨by simp, by simp⟩

/-- A call leaves existing entries as they are and does not give symbols to existing variables. -/
theorem exec_ext {p : PTab} (h : Tables p) (o : PTabOp) : p.numVars ≤ (o.exec p).numVars ∧
    (∀ x v, p.getIndex x = some v → (o.exec p).getIndex x = some v) ∧
    (∀ v, v < p.numVars → (o.exec p).getSymbol v = p.getSymbol v) := by
  cases o with
  | var x =>
    rw [show PTabOp.exec p (.var x) = (p.addVariable x).2 from rfl]
    cases hl : p.symMap.lookup x with
    | some v => rw [addVariable_old hl]; exact ⟨Nat.le_refl _, fun _ _ h => h, fun _ _ => rfl⟩
    | none =>
      rw [addVariable_new hl]
      dsimp only
      refine ⟨Nat.le_succ _, ?_, ?_⟩
      · intro y v hy
        unfold PTab.getIndex at hy ⊢
        rw [lookup_append, hy]; rfl
      · intro v hv
        unfold PTab.getSymbol
        dsimp only
        rw [lookup_append]
        cases p.varMap.lookup v with
        | some x => rfl
        | none => rw [List.lookup_cons, show (v == p.numVars) = false by simp; omega]; rfl
  | aux => exact ⟨Nat.le_succ _, fun _ _ h => h, fun _ _ => rfl⟩
  | «show» => exact ⟨Nat.le_refl _, fun _ _ h => h, fun _ _ => rfl⟩
  | showVar v => exact ⟨Nat.le_refl _, fun _ _ h => h, fun _ _ => rfl⟩
  | showSig n a => exact ⟨Nat.le_refl _, fun _ _ h => h, fun _ _ => rfl⟩

theorem run_ext {p : PTab} (h : Tables p) (ops : List PTabOp) : p.numVars ≤ (ptabRun ops p).numVars ∧
    (∀ x v, p.getIndex x = some v → (ptabRun ops p).getIndex x = some v) ∧
    (∀ v, v < p.numVars → (ptabRun ops p).getSymbol v = p.getSymbol v) := by
  induction ops generalizing p with
  | nil => exact ⟨Nat.le_refl _, fun _ _ h => h, fun _ _ => rfl⟩
  | cons o ops ih =>
    obtain ⟨a1, a2, a3⟩ := exec_ext h o
    obtain ⟨b1, b2, b3⟩ := ih (h.exec o)
    exact ⟨Nat.le_trans a1 b1, fun x v hx => b2 x v (a2 x v hx), fun v hv => (b3 v (Nat.lt_of_lt_of_le hv a1)).trans (a3 v hv)⟩

/-- **C40** After any sequence of calls, looking up the index of a symbol and taking the symbol of an index are inverse to each other;
also for the functions of the interface, whose indices start with 1. -/
theorem C40_inverse (ops : List PTabOp) (x : Sym) :
    (∀ v, (ptabRun ops {}).getIndex x = some v ↔ (ptabRun ops {}).getSymbol v = some x) ∧
    ((ptabRun ops {}).numVars ≤ 4294967296 → ∀ i, (ptabRun ops {}).apiLookup x = some i ↔ (ptabRun ops {}).apiSymbol i = some x) := by
  have h := tables_init.run ops
  refine ⟨h.inv x, fun hn i => ?_⟩
  unfold PTab.apiLookup PTab.apiSymbol PTab.getSymbol
  rw [← h.inv]
  unfold PTab.getIndex
  cases hl : (ptabRun ops {}).symMap.lookup x with
  | none => simp
  | some v =>
    have hb := h.bound _ (mem_of_lookup ((h.inv x v).mp hl))
    dsimp only at hb
    simp only [Option.map_some, Option.some.injEq]
    split <;> omega

/-- **C40** Indices are never changed: a symbol keeps its index and an index its symbol, whatever is called later. -/
theorem C40_stable (ops later : List PTabOp) :
    (∀ x v, (ptabRun ops {}).getIndex x = some v → (ptabRun (ops ++ later) {}).getIndex x = some v) ∧
    (∀ v x, (ptabRun ops {}).getSymbol v = some x → (ptabRun (ops ++ later) {}).getSymbol v = some x) := by
  have e : ptabRun (ops ++ later) {} = ptabRun later (ptabRun ops {}) := by unfold ptabRun; rw [List.foldl_append]
  have h := tables_init.run ops
  obtain ⟨-, h2, h3⟩ := run_ext h later
  rw [e]
  refine ⟨h2, fun v x hx => ?_⟩
  rw [h3 v (h.bound _ (mem_of_lookup hx))]
  exact hx

/-- **C40** Adding a variable for a symbol gives the index of the symbol; it is a new one if the symbol had none. -/
theorem C40_add (ops : List PTabOp) (x : Sym) :
    (((ptabRun ops {}).addVariable x).2).getIndex x = some ((ptabRun ops {}).addVariable x).1 ∧
    ((ptabRun ops {}).getIndex x = none → ∀ y, (ptabRun ops {}).getIndex y ≠ some ((ptabRun ops {}).addVariable x).1) := by
  have h := tables_init.run ops
  unfold PTab.addVariable
  cases hl : (ptabRun ops {}).symMap.lookup x with
  | some v =>
    refine ⟨hl, fun hn => ?_⟩
    unfold PTab.getIndex at hn
    rw [hl] at hn
    cases hn
  | none =>
    constructor
    · unfold PTab.getIndex
      dsimp only
      rw [lookup_append, hl]
      simp [List.lookup_cons]
    · intro _ y hy
      have := h.fresh (Nat.le_refl _)
      rw [(h.inv y _).mp hy] at this
      cases this

/-- **C40** Auxiliary variables never obtain a symbol. -/
theorem C40_aux (ops later : List PTabOp) :
    (ptabRun (ops ++ .aux :: later) {}).getSymbol (ptabRun ops {}).addAux.1 = none ∧
    ∀ x, (ptabRun (ops ++ .aux :: later) {}).getIndex x ≠ some (ptabRun ops {}).addAux.1 := by
  have e : ptabRun (ops ++ .aux :: later) {} = ptabRun later (PTabOp.exec (ptabRun ops {}) .aux) := by
    unfold ptabRun; rw [List.foldl_append, List.foldl_cons]
  have h := tables_init.run ops
  obtain ⟨-, -, h3⟩ := run_ext (h.exec .aux) later
  have h4 : (ptabRun (ops ++ .aux :: later) {}).getSymbol (ptabRun ops {}).addAux.1 = none := by
    rw [e, show (ptabRun ops {}).addAux.1 = (ptabRun ops {}).numVars from rfl, h3 (ptabRun ops {}).numVars (Nat.lt_succ_self _)]
    exact h.fresh (Nat.le_refl _)
  refine ⟨h4, fun x hx => ?_⟩
  have h5 := ((tables_init.run (ops ++ .aux :: later)).inv x (ptabRun ops {}).addAux.1).mp hx
  have h6 : (ptabRun (ops ++ .aux :: later) {}).varMap.lookup (ptabRun ops {}).addAux.1 = none := h4
  rw [h6] at h5
  cases h5

/-- Two symbols with an auxiliary variable in between. -/
example : (ptabRun [.var (.fn "x" [] true), .aux, .var (.fn "y" [] true), .var (.fn "x" [] true)] {}).getIndex (.fn "y" [] true) = some 2 ∧
    (ptabRun [.var (.fn "x" [] true), .aux, .var (.fn "y" [] true), .var (.fn "x" [] true)] {}).getSymbol 1 = none ∧
    (ptabRun [.var (.fn "x" [] true), .aux, .var (.fn "y" [] true), .var (.fn "x" [] true)] {}).apiLookup (.fn "x" [] true) = some 1 := by
  refine ⟨by decide, ?_, by decide⟩
  rw [← Option.not_isSome_iff_eq_none]
  decide

/-- **C42** A variable is part of the output exactly if it has a symbol and there is no show statement at all, or the variable was
listed, or the name and arity of its symbol were listed. -/
theorem C42_shown (ops : List PTabOp) (v : Nat) : (ptabRun ops {}).shown v = true ↔
    ∃ x, (ptabRun ops {}).getSymbol v = some x ∧
      (PTabOp.show ∉ ops ∨ PTabOp.showVar v ∈ ops ∨ ∃ name args sign, x = .fn name args sign ∧ PTabOp.showSig name args.length ∈ ops) := by
  have gen : ∀ (ops : List PTabOp) (p : PTab),
      ((ptabRun ops p).shows = true ↔ p.shows = true ∨ PTabOp.show ∈ ops) ∧
      (∀ v, v ∈ (ptabRun ops p).showVars ↔ v ∈ p.showVars ∨ PTabOp.showVar v ∈ ops) ∧
      (∀ n a, (n, a) ∈ (ptabRun ops p).showSigs ↔ (n, a) ∈ p.showSigs ∨ PTabOp.showSig n a ∈ ops) := by
    intro ops
    induction ops with
    | nil => intro p; simp [ptabRun]
    | cons o ops ih =>
      intro p
      obtain ⟨i1, i2, i3⟩ := ih (o.exec p)
      have hr : ptabRun (o :: ops) p = ptabRun ops (o.exec p) := rfl
      rw [hr]
      have hv : ∀ x, ((p.addVariable x).2.shows = p.shows) ∧ (p.addVariable x).2.showVars = p.showVars ∧ (p.addVariable x).2.showSigs = p.showSigs := by
        intro x
        unfold PTab.addVariable
        cases p.symMap.lookup x <;> exact ⟨rfl, rfl, rfl⟩
      refine ⟨?_, fun v => ?_, fun n a => ?_⟩
      · rw [i1]
        cases o <;> simp [PTabOp.exec, hv, PTab.addAux]
      · rw [i2]
        cases o <;> simp [PTabOp.exec, hv, PTab.addAux]
        tauto
      · rw [i3]
        cases o <;> simp [PTabOp.exec, hv, PTab.addAux]
        tauto
  obtain ⟨g1, g2, g3⟩ := gen ops {}
  simp only [Bool.false_eq_true, false_or, List.not_mem_nil] at g1 g2 g3
  unfold PTab.shown
  cases hs : (ptabRun ops {}).getSymbol v with
  | none => simp
  | some x =>
    dsimp only
    simp only [Option.some.injEq, exists_eq_left']
    by_cases h1 : (ptabRun ops {}).shows = true
    · rw [h1]
      simp only [Bool.not_true, Bool.false_eq_true, if_false]
      by_cases h2 : v ∈ (ptabRun ops {}).showVars
      · rw [if_pos (by simpa using h2)]
        simp [(g2 v).mp h2]
      · rw [if_neg (by simpa using h2)]
        have e1 : PTabOp.show ∈ ops := g1.mp h1
        have e2 : PTabOp.showVar v ∉ ops := fun h => h2 ((g2 v).mpr h)
        simp only [e1, e2, not_true_eq_false, false_or]
        cases x with
        | num n => simp
        | str s => simp
        | fn name args sign =>
          dsimp only
          rw [List.contains_iff_mem, g3]
          constructor
          · exact fun h => ⟨name, args, sign, rfl, h⟩
          · rintro ⟨a, b, c, h, h'⟩; cases h; exact h'
    · have e1 : PTabOp.show ∉ ops := fun h => h1 (g1.mpr h)
      simp only [Bool.not_eq_true] at h1
      rw [h1]
      simp [e1]

/-- A show statement listing a signature. -/
example : (ptabRun [.var (.fn "x" [.num 1] true), .var (.fn "y" [] true), .show, .showSig "x" 1] {}).shown 0 = true ∧
    (ptabRun [.var (.fn "x" [.num 1] true), .var (.fn "y" [] true), .show, .showSig "x" 1] {}).shown 1 = false := by decide

/-- Indices obtained by calling `clingcon_assignment_next` again and again, starting with an index, until it returns false. -/
inductive Visits (p : PTab) : Nat → List Nat → Prop
  | nil {i} : p.apiNext i = none → Visits p i []
  | cons {i j l} : p.apiNext i = some j → Visits p j l → Visits p i (j :: l)

theorem visits_det {p : PTab} {i : Nat} {l l' : List Nat} (h : Visits p i l) : Visits p i l' → l = l' := by
  induction h generalizing l' with
  | nil h1 =>
    intro h2
    cases h2 with
    | nil => rfl
    | cons h3 _ => rw [h1] at h3; cases h3
  | cons h1 _ ih =>
    intro h2
    cases h2 with
    | nil h3 => rw [h1] at h3; cases h3
    | cons h3 h4 => rw [h1] at h3; cases h3; rw [ih h4]

theorem varMap_top : ∀ (l : List (Nat × Sym)), ∃ n, ∀ i, (l.any (fun e => decide (i ≤ e.1)) = true ↔ i < n)
  | [] => ⟨0, by simp⟩
  | e :: l => by
    obtain ⟨n, hn⟩ := varMap_top l
    refine ⟨max n (e.1 + 1), fun i => ?_⟩
    rw [List.any_cons, Bool.or_eq_true, hn, decide_eq_true_eq]
    omega

theorem visits_range {p : PTab} {n : Nat} (hn : ∀ i, (p.varMap.any (fun e => decide (i ≤ e.1)) = true ↔ i < n)) :
    ∀ k i, i + k = n → Visits p i (List.range' (i + 1) k)
  | 0, i, h => .nil (by unfold PTab.apiNext; rw [if_neg (by rw [hn]; omega)])
  | k + 1, i, h => .cons (by unfold PTab.apiNext; rw [if_pos (by rw [hn]; omega)]) (visits_range hn k (i + 1) (by omega))

/-- **C41** The iteration terminates and visits the numbers `1, 2, ..., n` for some `n`, each once and in increasing order. Among them are
the indices of all variables with a symbol; those for which `clingcon_assignment_has_value` returns true are exactly those indices.

Missing from the full statement: the iteration also visits indices without a symbol, see `C41_gap`. -/
theorem C41_partial (ops : List PTabOp) (hb : (ptabRun ops {}).numVars ≤ 4294967296) : ∃ n,
    Visits (ptabRun ops {}) PTab.apiBegin (List.range' 1 n) ∧ (∀ l, Visits (ptabRun ops {}) PTab.apiBegin l → l = List.range' 1 n) ∧
    (∀ i, (∃ x, (ptabRun ops {}).apiLookup x = some i) ↔ i ∈ List.range' 1 n ∧ (ptabRun ops {}).apiHasValue i = true) := by
  have h := tables_init.run ops
  obtain ⟨n, hn⟩ := varMap_top (ptabRun ops {}).varMap
  have hv : Visits (ptabRun ops {}) PTab.apiBegin (List.range' 1 n) := visits_range hn n 0 (by omega)
  refine ⟨n, hv, fun l hl => visits_det hl hv, fun i => ?_⟩
  constructor
  · rintro ⟨x, hx⟩
    have h1 := ((C40_inverse ops x).2 hb i).mp hx
    refine ⟨?_, by unfold PTab.apiHasValue; rw [h1]; rfl⟩
    unfold PTab.apiLookup at hx
    cases hg : (ptabRun ops {}).getIndex x with
    | none => rw [hg] at hx; cases hx
    | some v =>
      rw [hg] at hx
      cases hx
      have hm := mem_of_lookup ((h.inv x v).mp hg)
      have := (hn v).mp (List.any_eq_true.mpr ⟨_, hm, by simp⟩)
      rw [List.mem_range'_1]
      show 1 ≤ v + 1 ∧ v + 1 < 1 + n
      omega
  · rintro ⟨-, h2⟩
    unfold PTab.apiHasValue at h2
    obtain ⟨x, hx⟩ := Option.isSome_iff_exists.mp h2
    exact ⟨x, ((C40_inverse ops x).2 hb i).mpr hx⟩

/-- The tables after adding a variable for a symbol, an auxiliary variable, and a variable for another symbol. -/
def gapTab : PTab := ptabRun [.var (.fn "x" [] true), .aux, .var (.fn "y" [] true)] {}

/-- **C41** fails: an index without a symbol is visited if there is an auxiliary variable between two variables with symbols. -/
theorem C41_gap : ∃ ops l, Visits (ptabRun ops {}) PTab.apiBegin l ∧ ∃ i ∈ l, (ptabRun ops {}).apiHasValue i = false := by
  refine ⟨[.var (.fn "x" [] true), .aux, .var (.fn "y" [] true)], [1, 2, 3], ?_, 2, by decide, by decide⟩
  exact .cons (by decide) (.cons (by decide) (.cons (by decide) (.nil (by decide))))

/-- The hypothesis of `C41_partial` is met. -/
example : gapTab.numVars ≤ 4294967296 ∧ gapTab.apiLookup (.fn "y" [] true) = some 3 := by decide

/-- Costs of models reported one after the other. -/
def reports (s : OptState) (bs : List Int) : OptState := bs.foldl OptState.onModel s

/-- **C29** The shared bound never increases when models are reported. -/
theorem C29_monotone (s : OptState) (bs : List Int) : (reports s bs).bound ≤ s.bound := by
  induction bs generalizing s with
  | nil => exact le_refl _
  | cons b bs ih =>
    refine le_trans (ih _) ?_
    unfold OptState.onModel
    split_ifs with h
    · show b - 1 ≤ _; omega
    · exact le_refl _

/-- **C29** Recorded costs strictly decrease: if a report changes the cost, then to a value below all costs recorded since the bound was
reset. -/
theorem C29_decrease (s : OptState) (bs : List Int) (b : Int) (c : Int) (hc : (reports s.init bs).cost = some c) (hb : bs ≠ []) (hm : ∀ b ∈ bs, b ≤ NO_BOUND)
    (hn : (reports s.init (bs ++ [b])).cost ≠ some c) : b < c ∧ (reports s.init (bs ++ [b])).cost = some b ∧ (reports s.init (bs ++ [b])).bound = b - 1 := by
  have key : ∀ (bs : List Int) (s : OptState), (bs ≠ [] ∧ (∀ b ∈ bs, b ≤ NO_BOUND) ∧ s.bound = NO_BOUND ∨ s.cost = some (s.bound + 1)) →
      (reports s bs).cost = some ((reports s bs).bound + 1) := by
    intro bs
    induction bs with
    | nil =>
      rintro s (⟨h, -⟩ | h)
      · exact absurd rfl h
      · exact h
    | cons b bs ih =>
      intro s h
      refine ih (s.onModel b) (Or.inr ?_)
      unfold OptState.onModel
      split_ifs with hb
      · simp
      · rcases h with ⟨-, h1, h2⟩ | h
        · exact absurd (h2 ▸ h1 b (by simp)) hb
        · exact h
  have h1 := key bs s.init (Or.inl ⟨hb, hm, rfl⟩)
  rw [hc] at h1
  injection h1 with h1
  have e : reports s.init (bs ++ [b]) = (reports s.init bs).onModel b := by unfold reports; rw [List.foldl_append]; rfl
  rw [e] at hn ⊢
  unfold OptState.onModel at hn ⊢
  split_ifs at hn ⊢ with h2
  · refine ⟨?_, rfl, rfl⟩
    have : b ≠ c := by rintro rfl; exact hn rfl
    omega
  · exact absurd hc hn

/-- **C29** In a solve step, after the costs `b, bs` have been reported in this order, by whichever threads, the shared bound is one less
than the least cost reported, and the recorded cost is the least cost reported. -/
theorem C29_least (s : OptState) (b : Int) (bs : List Int) (hm : ∀ c ∈ b :: bs, c ≤ NO_BOUND) : ∃ c ∈ b :: bs, (∀ c' ∈ b :: bs, c ≤ c') ∧
    (reports s.init (b :: bs)).bound = c - 1 ∧ (reports s.init (b :: bs)).cost = some c := by
  have key : ∀ (bs : List Int) (c0 : Int), ∃ c ∈ c0 :: bs, (∀ c' ∈ c0 :: bs, c ≤ c') ∧
      reports ⟨c0 - 1, some c0⟩ bs = ⟨c - 1, some c⟩ := by
    intro bs
    induction bs with
    | nil => exact fun c0 => ⟨c0, by simp, by simp, rfl⟩
    | cons b bs ih =>
      intro c0
      have e : reports ⟨c0 - 1, some c0⟩ (b :: bs) = reports (OptState.onModel ⟨c0 - 1, some c0⟩ b) bs := rfl
      rw [e]
      unfold OptState.onModel
      dsimp only
      split_ifs with h
      · obtain ⟨c, h1, h2, h3⟩ := ih b
        refine ⟨c, List.mem_cons_of_mem _ h1, ?_, h3⟩
        intro c' hc'
        rcases List.mem_cons.mp hc' with rfl | hc'
        · have := h2 b (by simp); omega
        · exact h2 c' hc'
      · obtain ⟨c, h1, h2, h3⟩ := ih c0
        refine ⟨c, ?_, ?_, h3⟩
        · rcases List.mem_cons.mp h1 with rfl | h1
          · simp
          · simp [h1]
        · intro c' hc'
          have := h2 c0 (by simp)
          rcases List.mem_cons.mp hc' with rfl | hc'
          · exact this
          · rcases List.mem_cons.mp hc' with rfl | hc'
            · omega
            · exact h2 c' (by simp [hc'])
  obtain ⟨c, h1, h2, h3⟩ := key bs b
  have e : reports s.init (b :: bs) = reports ⟨b - 1, some b⟩ bs := by
    show reports (OptState.onModel s.init b) bs = _
    unfold OptState.onModel
    rw [if_pos (show b ≤ s.init.bound from hm b (by simp))]
  exact ⟨c, h1, h2, by rw [e, h3], by rw [e, h3]⟩

theorem cost_eq (m : MinCon) (val : Nat → Int) : m.cost val = wsum val m.elems - m.adjust := by
  have key : ∀ (l : List (Int × Nat)) (a : Int), l.foldl (fun b e => b + e.1 * val e.2) a = a + wsum val l := by
    intro l
    induction l with
    | nil => simp
    | cons e l ih => intro a; rw [List.foldl_cons, ih, wsum_cons]; ring
  unfold MinCon.cost
  rw [key]
  omega

/-- **C29** The bound that the propagator hands to the solvers admits exactly the assignments that improve on all costs reported so far. -/
theorem C29_check (s : OptState) (m : MinCon) (b : Int) (bs : List Int) (hm : ∀ c ∈ b :: bs, c ≤ NO_BOUND) (val : Nat → Int) :
    ∃ bound, (reports s.init (b :: bs)).checkBound m = some bound ∧
      (wsum val m.elems ≤ bound ↔ ∀ c ∈ b :: bs, m.cost val < c) := by
  obtain ⟨c, h1, h2, h3, -⟩ := C29_least s b bs hm
  unfold OptState.checkBound
  rw [h3, if_pos (by have := hm c h1; omega)]
  refine ⟨_, rfl, ?_⟩
  rw [cost_eq]
  constructor
  · intro h c' hc'
    have := h2 c' hc'
    omega
  · intro h
    have := h c h1
    omega

/-- Three models, the second one being worse than the first one. -/
example : (∀ c ∈ [(5 : Int), 7, 3], c ≤ NO_BOUND) ∧ (reports ({} : OptState).init [5, 7, 3]).bound = 2 ∧
    (reports ({} : OptState).init [5, 7]).cost = some 5 := by decide

/-- **C30** The exact effect of preparing the objective for a further solve step: the cost of an assignment becomes the old cost plus the
value of the added terms plus twice the old `adjust`, that is, the constant part of the old objective changes its sign. -/
theorem C30_law {sort : List (Int × Nat) → List (Int × Nat)} (hs : ∀ l, (sort l).Perm l) {m m' : MinCon} {new : List (Int × Nat)}
    (hm : ∀ e ∈ m.elems, e.2 < INVALID_VAR) (h : prepareMinimize sort (some m) new = .ok (some m')) (val : Nat → Int) :
    m'.cost val = m.cost val + linVal val new + 2 * m.adjust ∧ ∀ e ∈ m'.elems, e.2 < INVALID_VAR := by
  unfold prepareMinimize at h
  dsimp only at h
  rw [if_neg (by simp)] at h
  obtain ⟨⟨out, rhs⟩, h1, h2⟩ := bind_ok h
  injection h2 with h2
  injection h2 with h2
  subst h2
  have e1 := C06_value _ _ _ _ h1 val
  obtain ⟨-, -, e2, -, -⟩ := C06_shape _ _ _ _ h1
  have valid : ∀ (l : List (Int × Nat)), (∀ e ∈ l, e.2 < INVALID_VAR) → linVal val l = wsum val l := by
    intro l hl
    unfold linVal wsum
    congr 1
    apply List.map_congr_left
    intro e he
    unfold linDen
    rw [if_pos (show e.2 < 4294967295 from hl e he)]
  have e3 : ∀ e ∈ sort out, e.2 < INVALID_VAR := fun e he => (e2 e ((hs out).mem_iff.mp he)).1
  refine ⟨?_, e3⟩
  rw [cost_eq, cost_eq]
  dsimp only
  have e4 : wsum val (sort out) = linVal val out := by
    rw [valid out (fun e he => (e2 e he).1)]
    unfold wsum
    exact ((hs out).map _).sum_eq
  rw [e4]
  have e5 : linVal val (new ++ m.elems ++ [(m.adjust, INVALID_VAR)]) = linVal val new + wsum val m.elems + m.adjust := by
    rw [← valid m.elems hm]
    unfold linVal
    rw [wsum_append, wsum_append]
    simp [wsum, linDen, INVALID_VAR]
  omega

/-- **C30** An objective without constant part keeps the cost of each assignment if nothing is added in a step.

Missing from the full statement: objectives with a constant part, see `C30_negation`. -/
theorem C30_partial {sort : List (Int × Nat) → List (Int × Nat)} (hs : ∀ l, (sort l).Perm l) {m m' : MinCon}
    (hm : ∀ e ∈ m.elems, e.2 < INVALID_VAR) (h0 : m.adjust = 0) (h : prepareMinimize sort (some m) [] = .ok (some m')) (val : Nat → Int) :
    m'.cost val = m.cost val := by
  have := (C30_law hs hm h val).1
  rw [h0, show linVal val [] = 0 from rfl] at this
  omega

/-- **C30** fails: for the objective `x + 1` the cost of `x = 5` is 6 in the first step and 4 in the second one. -/
theorem C30_negation : ∃ m m' : MinCon, prepareMinimize id none [(1, 0), (1, INVALID_VAR)] = .ok (some m) ∧
    prepareMinimize id (some m) [] = .ok (some m') ∧ m.cost (fun _ => 5) = 6 ∧ m'.cost (fun _ => 5) = 4 :=
  ⟨⟨-1, [(1, 0)]⟩, ⟨1, [(1, 0)]⟩, rfl, rfl, rfl, rfl⟩

/-- The hypotheses of `C30_law` and `C30_partial` are met. -/
example : ∃ m', prepareMinimize id (some ⟨0, [(2, 0), (3, 1)]⟩) [] = .ok (some m') ∧ m'.cost (fun _ => 5) = 25 :=
  ⟨⟨0, [(2, 0), (3, 1)]⟩, rfl, rfl⟩

/-- Statistics of steps reported one after the other; the result are the accumulated statistics. -/
def accumulate (steps : List Stats) (a : Stats) : Stats := steps.foldl (fun a s => (onStatistics s a).1.2) a

/-- The sum of numbers of type `uint64_t`. -/
def total (l : List UInt64) : UInt64 := l.foldl (· + ·) 0

theorem total_cons (x : UInt64) (l : List UInt64) : total (x :: l) = x + total l := by
  have key : ∀ (l : List UInt64) (a : UInt64), l.foldl (· + ·) a = a + l.foldl (· + ·) 0 := by
    intro l
    induction l with
    | nil => intro a; simp
    | cons y l ih => intro a; rw [List.foldl_cons, List.foldl_cons, ih, ih (0 + y), UInt64.zero_add, UInt64.add_assoc]
  unfold total
  rw [List.foldl_cons, key, UInt64.zero_add]

theorem accuThreads_get : ∀ (as ss : List SolverStats) (i : Nat), (accuThreads as ss)[i]? =
    match as[i]?, ss[i]? with
    | some a, some s => some (a.accu s)
    | some a, none => some a
    | none, s => s
  | as, [], i => by
    have : accuThreads as [] = as := by cases as <;> rfl
    rw [this]
    cases as[i]? <;> simp
  | [], s :: ss, 0 => by simp [accuThreads]
  | [], s :: ss, i + 1 => by
    have := accuThreads_get [] ss i
    simp only [accuThreads, List.getElem?_cons_succ, List.getElem?_nil] at this ⊢
    exact this
  | a :: as, s :: ss, 0 => by simp [accuThreads]
  | a :: as, s :: ss, i + 1 => by
    have := accuThreads_get as ss i
    simp only [accuThreads, List.getElem?_cons_succ] at this ⊢
    exact this

/-- A counter of a thread, 0 if there is no such thread. -/
def threadStat (f : SolverStats → UInt64) (s : Stats) (i : Nat) : UInt64 := match s.threads[i]? with | some t => f t | none => 0

/-- **C46** After any number of steps, each accumulated counter is the sum of the counters of the steps, also for each thread, and the
cost is the one of the last step. -/
theorem C46_sums (steps : List Stats) :
    (∀ f ∈ [Stats.numVariables, Stats.numConstraints, Stats.numClauses, Stats.numLiterals, Stats.translateRemoved, Stats.translateAdded,
      Stats.translateClauses, Stats.translateWcs, Stats.translateLiterals], f (accumulate steps {}) = total (steps.map f)) ∧
    (∀ f ∈ [SolverStats.refinedReason, SolverStats.introducedReason, SolverStats.literals], ∀ i,
      threadStat f (accumulate steps {}) i = total (steps.map (fun s => threadStat f s i))) ∧
    (∀ last, steps.getLast? = some last → (accumulate steps {}).cost = last.cost) := by
  refine ⟨?_, ?_, ?_⟩
  · intro f hf
    have hadd : ∀ a s : Stats, f (a.accu s) = f a + f s := by
      intro a s
      simp only [List.mem_cons, List.not_mem_nil, or_false] at hf
      rcases hf with rfl | rfl | rfl | rfl | rfl | rfl | rfl | rfl | rfl <;> rfl
    have hz : f {} = 0 := by
      simp only [List.mem_cons, List.not_mem_nil, or_false] at hf
      rcases hf with rfl | rfl | rfl | rfl | rfl | rfl | rfl | rfl | rfl <;> rfl
    have key : ∀ (steps : List Stats) (a : Stats), f (accumulate steps a) = f a + total (steps.map f) := by
      intro steps
      induction steps with
      | nil => intro a; simp [accumulate, total]
      | cons s steps ih =>
        intro a
        have e : accumulate (s :: steps) a = accumulate steps (a.accu s) := rfl
        rw [e, ih, hadd, List.map_cons, total_cons, UInt64.add_assoc]
    rw [key, hz, UInt64.zero_add]
  · intro f hf i
    have hadd : ∀ a s : SolverStats, f (a.accu s) = f a + f s := by
      intro a s
      simp only [List.mem_cons, List.not_mem_nil, or_false] at hf
      rcases hf with rfl | rfl | rfl <;> rfl
    have hstep : ∀ a s : Stats, threadStat f (a.accu s) i = threadStat f a i + threadStat f s i := by
      intro a s
      unfold threadStat
      rw [show (a.accu s).threads = accuThreads a.threads s.threads from rfl, accuThreads_get]
      cases a.threads[i]? <;> cases s.threads[i]? <;> simp [hadd]
    have key : ∀ (steps : List Stats) (a : Stats), threadStat f (accumulate steps a) i = threadStat f a i + total (steps.map (fun s => threadStat f s i)) := by
      intro steps
      induction steps with
      | nil => intro a; simp [accumulate, total]
      | cons s steps ih =>
        intro a
        have e : accumulate (s :: steps) a = accumulate steps (a.accu s) := rfl
        rw [e, ih, hstep, List.map_cons, total_cons, UInt64.add_assoc]
    rw [key, show threadStat f {} i = 0 from rfl, UInt64.zero_add]
  · intro last hl
    obtain ⟨pre, rfl⟩ : ∃ pre, steps = pre ++ [last] := by
      rw [List.getLast?_eq_some_iff] at hl
      exact hl
    unfold accumulate
    rw [List.foldl_append]
    rfl

/-- Two steps with different numbers of threads. -/
example : (accumulate [{ numClauses := 3, threads := [⟨1, 2, 3⟩] }, { numClauses := 4, cost := some 7, threads := [⟨1, 1, 1⟩, ⟨0, 0, 5⟩] }] {}).numClauses = 7 ∧
    threadStat SolverStats.literals (accumulate [{ threads := [⟨1, 2, 3⟩] }, { threads := [⟨1, 1, 1⟩, ⟨0, 0, 5⟩] }] {}) 1 = 5 := by
  constructor <;> rfl

end Clingcon.Props
