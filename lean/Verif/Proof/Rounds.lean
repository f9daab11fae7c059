import Verif.Proof.GivenStep
import Verif.Proof.GivenFacts
import Verif.Proof.Nested
import Verif.Proof.Steps
import Verif.Spec.Rounds

/-! The loop of `check` ends: each round but the first integrates a fact that removes a value. -/
set_option linter.unusedSimpArgs false
set_option linter.unusedVariables false
namespace Clingcon
open Spec VarState

variable {α γ : Type} {W W0 W' : World} {cc : CC} {r : Bool}

theorem bind_same {x : SM α} {f g : α → SM γ} (h : ∀ a W', x W = .ok (a, W') → f a W' = g a W') : (x >>= f) W = (x >>= g) W := by
  show Except.bind (x W) _ = Except.bind (x W) _
  cases hx : x W with
  | error e => rfl
  | ok p => exact h p.1 p.2 hx

/-! ### Sizes of domains -/

theorem sum_le (g : α → Nat) : ∀ {l l' : List α}, l'.length = l.length → (∀ (i : Nat) a a', l[i]? = some a → l'[i]? = some a' → g a' ≤ g a) →
    (l'.map g).sum ≤ (l.map g).sum ∧ ((∃ (i : Nat) (a a' : α), l[i]? = some a ∧ l'[i]? = some a' ∧ g a' < g a) → (l'.map g).sum < (l.map g).sum)
  | [], l', hl, h => by
    cases l' with
    | nil => exact ⟨Nat.le_refl _, by rintro ⟨i, a, a', h1, -⟩; simp at h1⟩
    | cons => cases hl
  | a :: l, l', hl, h => by
    cases l' with
    | nil => cases hl
    | cons a' l' =>
      obtain ⟨k1, k2⟩ := sum_le g (l := l) (l' := l') (by simpa using hl) (fun i b b' hb hb' => h (i + 1) b b' hb hb')
      have h0 := h 0 a a' rfl rfl
      refine ⟨by simp; omega, ?_⟩
      rintro ⟨i, b, b', hb, hb', hlt⟩
      cases i with
      | zero =>
        simp at hb hb'
        subst hb hb'
        simp; omega
      | succ i =>
        have := k2 ⟨i, b, b', hb, hb', hlt⟩
        simp; omega

theorem size_le (ht : Tight (frame W) (frame W')) (hn : AllNested W) : domainSize W' ≤ domainSize W ∧
    ((∃ v, v < W.vars.length ∧ loF (frame W') v ≤ upF (frame W') v ∧ (loF (frame W) v < loF (frame W') v ∨ upF (frame W') v < upF (frame W) v)) → domainSize W' < domainSize W) := by
  have hlen : W'.vars.length = W.vars.length := by simpa [frame] using ht.1
  have key : ∀ (W : World) (i : Nat) a, W.vars[i]? = some a → loF (frame W) i = a.lower ∧ upF (frame W) i = a.upper := by
    intro W i a ha
    have : (frame W).1[i]? = some a.bounds := by
      show (W.vars.map VarState.bounds)[i]? = _
      rw [List.getElem?_map, ha]; rfl
    unfold loF upF
    rw [this]
    exact ⟨rfl, rfl⟩
  have hle := sum_le (fun vs : VarState => (vs.upper - vs.lower).toNat) hlen (fun i a a' ha ha' => by
    have := ht.2 i
    rw [(key W i a ha).1, (key W i a ha).2, (key W' i a' ha').1, (key W' i a' ha').2] at this
    omega)
  refine ⟨hle.1, ?_⟩
  rintro ⟨v, hv, h1, h2⟩
  refine hle.2 ⟨v, W.vars[v], W'.vars[v]'(by omega), List.getElem?_eq_getElem hv, List.getElem?_eq_getElem (by omega), ?_⟩
  have := ht.2 v
  have k1 := key W v _ (List.getElem?_eq_getElem hv)
  have k2 := key W' v _ (List.getElem?_eq_getElem (by omega))
  rw [k1.1, k1.2, k2.1, k2.2] at this h2
  rw [k2.1, k2.2] at h1
  omega

/-! ### Facts remove values -/

/-- The first fact is taken into account. -/
theorem propagateFacts_first {lvl v : Nat} {f x p : Int} {fs : List (Int × Nat × Int × Int)} (h : propagateFacts cc lvl ((f, v, x, p) :: fs) W = .ok (true, W')) :
    (f = TRUE_LIT → upF (frame W') v ≤ x) ∧ (f ≠ TRUE_LIT → x < loF (frame W') v) := by
  unfold propagateFacts at h
  rw [bind_iff] at h
  obtain ⟨b, W1, h1, h⟩ := h
  cases b with
  | false => obtain ⟨e, -⟩ := pure_iff.mp h; cases e
  | true =>
    rw [if_neg (by decide), bind_iff] at h
    obtain ⟨_, W2, h2, h⟩ := h
    have hP := tight_prim (F := frame W1)
    have t2 := (hP.drFact f v x).kw _ _ _ h2 (Tight.refl _)
    have t3 := t2.trans ((kw_propagateFacts (tight_prim (F := frame W2))).kw _ _ _ h (Tight.refl _))
    constructor
    · intro hf
      rw [if_pos hf] at h1
      have := (updateUpperLit_bounds h1).2.2 rfl
      have := (t3.2 v).2
      omega
    · intro hf
      rw [if_neg hf] at h1
      have := (updateLowerLit_bounds h1).2.2 rfl
      have := (t3.2 v).1
      omega

theorem integrateFacts_first {q : Int × Nat × Int × Int} {fs : List (Int × Nat × Int × Int)} (hf : W.factmap = q :: fs) (h : integrateFacts cc W = .ok (true, W')) :
    cc.level = 0 ∧ W'.factmap = [] ∧ ((q.1 = TRUE_LIT → upF (frame W') q.2.1 ≤ q.2.2.1) ∧ (q.1 ≠ TRUE_LIT → q.2.2.1 < loF (frame W') q.2.1)) := by
  obtain ⟨f, v, x, p⟩ := q
  unfold integrateFacts at h
  rw [bind_iff] at h
  obtain ⟨X, W1, h1, h⟩ := h
  obtain ⟨rfl, rfl⟩ := get_iff.mp h1
  rw [hf, if_neg (by simp), bind_iff] at h
  obtain ⟨_, W2, h2, h⟩ := h
  obtain ⟨hl, rfl⟩ := assertS_iff.mp h2
  refine ⟨by simpa using hl, ?_⟩
  unfold updateDomain at h
  simp only [bind_iff] at h
  obtain ⟨lvl, W3, h3, b, W4, h4, _, W5, h5, l, W6, h6, h⟩ := h
  obtain ⟨-, rfl⟩ := curLevel_iff.mp h3
  obtain ⟨-, rfl⟩ := qTrue_iff.mp h4
  obtain ⟨-, rfl⟩ := assertS_iff.mp h5
  have e6 : l = TRUE_LIT ∧ W6 = W5 := by
    unfold simplifyLit at h6
    rw [bind_iff] at h6
    obtain ⟨fx, W7, h7, h6⟩ := h6
    obtain ⟨-, rfl⟩ := qFixed_iff.mp h7
    rw [if_neg (by simp)] at h6
    exact pure_iff.mp h6
  obtain ⟨rfl, rfl⟩ := e6
  rw [if_pos rfl] at h
  simp only [bind_iff] at h
  obtain ⟨n, W7, h7, _, W8, h8, X, W9, h9, r, W10, h10, h⟩ := h
  obtain ⟨-, rfl⟩ := qLevel_iff.mp h7
  obtain ⟨-, rfl⟩ := assertS_iff.mp h8
  obtain ⟨rfl, rfl⟩ := get_iff.mp h9
  cases r with
  | false => obtain ⟨e, -⟩ := pure_iff.mp h; cases e
  | true =>
    rw [if_neg (by decide), bind_iff] at h
    obtain ⟨_, W11, h11, h⟩ := h
    rw [modify_iff] at h11
    subst h11
    obtain ⟨-, rfl⟩ := pure_iff.mp h
    rw [hf] at h10
    obtain ⟨k1, k2⟩ := propagateFacts_first h10
    exact ⟨rfl, k1, k2⟩

/-! ### Facts made by constraints -/

/-- The facts that have been introduced remove values. -/
structure FreshFacts (F : List VarState) (W : World) : Prop where
  ti : TI W
  vars : (frame W).1 = F
  facts : ∀ q ∈ W.factmap, ∃ vs, F[q.2.1]? = some vs ∧ vs.lower ≤ q.2.2.1 ∧ q.2.2.1 < vs.upper

theorem fresh_prim {F : List VarState} (hs : ∀ vs ∈ F, vs.lowerStack = [] ∧ vs.upperStack = []) : Prim0 (FreshFacts F) where
  book W b hb h := ⟨ti_prim.book W b hb h.ti, h.vars, h.facts⟩
  event W e he h := ⟨ti_prim.event W e he h.ti, h.vars, h.facts⟩
  literal cc v x := by
    refine ⟨fun W l W' h hp => ⟨(ti_prim.literal cc v x).kw _ _ _ h hp.ti, ?_, ?_⟩⟩
    · rw [fr_getLiteral.fr _ _ _ h]; exact hp.vars
    · rw [(getLiteral_eff hp.ti.wf (by have := hp.ti.pos; omega) h).factmap]; exact hp.facts
  updLiteral cc v x t := by
    refine ⟨fun W l W' h hp => ⟨(ti_prim.updLiteral cc v x t).kw _ _ _ h hp.ti, ?_, ?_⟩⟩
    · rw [fr_updateLiteral.fr _ _ _ h]; exact hp.vars
    · rcases updateLiteral_eff hp.ti.wf (by have := hp.ti.pos; omega) h with ⟨-, t, -, g⟩ | g
      · cases g with
        | got _ _ g => rw [g.factmap]; exact hp.facts
        | fact vs vs' hv h1 h2 h3 h4 =>
          intro q hq
          rcases List.mem_append.mp hq with hq | hq
          · exact hp.facts q hq
          obtain rfl := List.mem_singleton.mp hq
          have hb : F[v]? = some vs.bounds := by
            rw [← hp.vars]
            show (W.vars.map VarState.bounds)[v]? = _
            rw [List.getElem?_map, hv]; rfl
          obtain ⟨s1, s2⟩ := hs _ (List.mem_of_getElem? hb)
          refine ⟨_, hb, ?_, ?_⟩
          · have s1 : vs.lowerStack = [] := s1
            unfold minBound at h1
            rw [s1] at h1
            exact h1
          · have s2 : vs.upperStack = [] := s2
            unfold maxBound at h2
            rw [s2] at h2
            exact h2
      · rw [g.factmap]; exact hp.facts

theorem integrateFacts_clear (h : integrateFacts cc W = .ok (true, W')) : W'.factmap = [] := by
  cases hf : W.factmap with
  | cons q fs => exact (integrateFacts_first hf h).2.1
  | nil =>
    unfold integrateFacts at h
    rw [bind_iff] at h
    obtain ⟨X, W1, h1, h⟩ := h
    obtain ⟨rfl, rfl⟩ := get_iff.mp h1
    rw [hf, if_pos List.isEmpty_nil] at h
    obtain ⟨-, rfl⟩ := pure_iff.mp h
    exact hf

theorem integrateFacts_above (hc : cc.level ≠ 0) (hf : W.factmap ≠ []) : ∃ e, integrateFacts cc W = .error e := by
  cases hx : integrateFacts cc W with
  | error e => exact ⟨e, rfl⟩
  | ok p =>
    unfold integrateFacts at hx
    rw [show p = (p.1, p.2) from rfl, bind_iff] at hx
    obtain ⟨X, W1, h1, h⟩ := hx
    obtain ⟨rfl, rfl⟩ := get_iff.mp h1
    rw [if_neg (by simpa using hf), bind_iff] at h
    obtain ⟨_, W2, h2, h⟩ := h
    exact absurd (assertS_iff.mp h2).1 (by simpa using hc)

/-! ### Rounds -/

variable {stop : SM Bool} {ck : Bool}

theorem rounds_above {lvl n : Nat} (hc : cc.level ≠ 0) (hn : 2 ≤ n) : checkRounds stop cc ck lvl n W = checkLoop cc ck lvl n W := by
  obtain ⟨n, rfl⟩ : ∃ m, n = m + 2 := ⟨n - 2, by omega⟩
  unfold checkRounds checkLoop
  refine bind_same fun b W1 h1 => ?_
  split
  · rfl
  refine bind_same fun _ W2 h2 => bind_same fun X W3 h3 => bind_same fun ret W4 h4 => bind_same fun _ W5 h5 => bind_same fun Y W6 h6 => ?_
  obtain ⟨rfl, rfl⟩ := get_iff.mp h6
  split
  · rfl
  rename_i hf
  have hf : W6.factmap ≠ [] := by
    intro e; apply hf; rw [e]; simp
  unfold checkRounds checkLoop
  obtain ⟨e, he⟩ := integrateFacts_above hc hf
  exact bind_same fun b W h => by rw [he] at h; cases h

theorem rounds_base {A : (Nat → Nat → Int) × (Nat → Nat → Int) × Nat} : ∀ {n : Nat} {W : World}, cc.level = 0 → TI W → AllNested W → At [baseLvl] A (frame W) →
    ((W.factmap ≠ [] ∧ FreshFacts (frame W).1 W ∧ domainSize W < n) ∨ domainSize W + 1 < n) → checkRounds stop cc ck 0 n W = checkLoop cc ck 0 n W
  | 0, W, _, _, _, _, h => by rcases h with ⟨-, -, h⟩ | h <;> omega
  | n + 1, W, hc, ti, hn, ha, h => by
    unfold checkRounds checkLoop
    refine bind_same fun b W1 h1 => ?_
    cases b with
    | false => rfl
    | true =>
    rw [if_neg (by decide), if_neg (by decide)]
    have ti1 : TI W1 := (kw_integrateFacts ti_prim.toPrimU.toPrimD).kw _ _ _ h1 ti
    have hn1 : AllNested W1 := (kw_integrateFacts nested_prim.toPrimU.toPrimD).kw _ _ _ h1 hn
    have ha1 := keep_integrateFacts.keep _ _ _ h1 ha
    have t1 : Tight (frame W) (frame W1) := (kw_integrateFacts tight_prim.toPrimD).kw _ _ _ h1 (Tight.refl _)
    have c1 := integrateFacts_clear h1
    have s1 : domainSize W1 < n := by
      obtain ⟨k1, k2⟩ := size_le t1 hn
      rcases h with ⟨hf, hr, hs⟩ | hs
      · obtain ⟨q, fs, hq⟩ := List.exists_cons_of_ne_nil hf
        obtain ⟨-, -, g1, g2⟩ := integrateFacts_first hq h1
        obtain ⟨vs, hv, hl, hu⟩ := hr.facts q (by rw [hq]; exact List.mem_cons_self ..)
        have hlen : q.2.1 < W.vars.length := by
          have := (List.getElem?_eq_some_iff.mp hv).1
          simpa [frame] using this
        have e1 : loF (frame W) q.2.1 = vs.lower := by unfold loF; rw [hv]
        have e2 : upF (frame W) q.2.1 = vs.upper := by unfold upF; rw [hv]
        have := k2 ⟨q.2.1, hlen, ?_, ?_⟩
        · omega
        · have hv1 : ∃ y, (frame W1).1[q.2.1]? = some y := by
            have := t1.1
            exact ⟨_, List.getElem?_eq_getElem (by rw [this]; simpa [frame] using hlen)⟩
          obtain ⟨y, hy⟩ := hv1
          unfold loF upF
          rw [hy]
          exact (hn1 y (List.mem_of_getElem? hy)).le
        · by_cases hq : q.1 = TRUE_LIT
          · right; have := g1 hq; omega
          · left; have := g2 hq; omega
      · omega
    refine bind_same fun _ W2 h2 => bind_same fun X W3 h3 => bind_same fun ret W4 h4 => bind_same fun _ W5 h5 => bind_same fun Y W6 h6 => ?_
    obtain ⟨rfl, rfl⟩ := get_iff.mp h3
    obtain ⟨rfl, rfl⟩ := get_iff.mp h6
    rw [modify_iff] at h5
    split
    · rfl
    rename_i hf
    have hb := ha1.bi.base ha1.lev
    have hs : ∀ vs ∈ (frame W1).1, vs.lowerStack = [] ∧ vs.upperStack = [] := by
      intro vs hv
      obtain ⟨i, hi⟩ := List.mem_iff_getElem?.mp hv
      have a1 := hb.stL i
      have a2 := hb.stU i
      unfold lstF at a1
      unfold ustF at a2
      rw [hi] at a1 a2
      exact ⟨a1, List.map_eq_nil_iff.mp a2⟩
    have f1 : FreshFacts (frame W1).1 W1 := ⟨ti1, rfl, by rw [c1]; exact fun q hq => (List.not_mem_nil hq).elim⟩
    have f2 := (kw_deliver (fresh_prim hs)).kw _ _ _ h2 f1
    have f4 := (kw_checkTodo (fresh_prim hs)).kw _ _ _ h4 f2
    have f6 : FreshFacts (frame W1).1 W6 := by subst h5; exact (fresh_prim hs).book _ _ rfl f4
    obtain ⟨a2, q2⟩ := deliver_eff (l := baseLvl) h2 ha1
    have c4 := (keepC_checkTodo (fun _ h => h)).keep _ _ _ h4 ⟨a2, q2, rfl⟩
    refine rounds_base (A := A) hc f6.ti ?_ ?_ (Or.inl ⟨?_, ?_, ?_⟩)
    · unfold AllNested; rw [f6.vars]; exact hn1
    · subst h5
      refine c4.at.book ?_ rfl rfl
      exact c4.at.bi.setAll (vs := (frame W4).1) (b := W4.book) (cs' := W4.book.cs) (todo' := []) rfl
        (fun n c hc => ⟨c, hc, rfl, fun h => ⟨h, id⟩⟩) (by simp)
    · intro e; apply hf; rw [e]; simp
    · rw [f6.vars]; exact f6
    · have : domainSize W6 = domainSize W1 := by
        have := f6.vars
        have e : ∀ W : World, domainSize W = ((frame W).1.map (fun vs => (vs.upper - vs.lower).toNat)).sum := by
          intro W
          show _ = ((W.vars.map VarState.bounds).map _).sum
          rw [List.map_map]; rfl
        rw [e W6, e W1, this]
      omega

theorem checkWith_eq {n : Nat} (ti : TI W) (hn : AllNested W) (hw : WI W) (hl : cc.level = 0 → W.level = 0) (hs : domainSize W + 1 < n) :
    checkWith stop cc ck n W = solverCheck cc ck n W := by
  unfold checkWith solverCheck
  refine bind_same fun l W1 h1 => ?_
  obtain ⟨hl1, rfl⟩ := curLevel_iff.mp h1
  refine bind_same fun X W2 h2 => ?_
  obtain ⟨rfl, rfl⟩ := get_iff.mp h2
  split
  · rfl
  · by_cases hc : cc.level = 0
    · obtain ⟨ls, hls⟩ : ∃ ls, W2.book.levels = l :: ls := by
        cases hx : W2.book.levels with
        | nil => rw [hx] at hl1; cases hl1
        | cons l' ls => rw [hx] at hl1; injection hl1 with hl1; subst hl1; exact ⟨ls, rfl⟩
      have h0 : l.level = 0 := by
        have := hl hc
        unfold World.level at this
        rw [hls] at this
        exact this
      have hd := hw.bi.dec
      have hb : W2.book.levels = [baseLvl] := by
        refine hw.levels ?_
        cases ls with
        | nil => rw [hls]; rfl
        | cons m ms =>
          have hd : (W2.book.levels.map (·.level)).Pairwise (· > ·) := hd
          rw [hls] at hd
          simp only [List.map_cons, List.pairwise_cons] at hd
          have := hd.1 m.level (List.mem_cons_self ..)
          omega
      rw [h0]
      exact rounds_base (A := (alF (frame W2), auF (frame W2), (frame W2).1.length)) hc ti hn ⟨hw.bi, hb, fun _ _ _ _ _ => ⟨rfl, rfl⟩, rfl⟩ (Or.inr hs)
    · exact rounds_above hc (by omega)

theorem rounds_add {lvl : Nat} : ∀ {n k : Nat} {W : World}, checkRounds (checkLoop cc ck lvl k) cc ck lvl n W = checkLoop cc ck lvl (n + k) W
  | 0, k, W => by rw [Nat.zero_add]; rfl
  | n + 1, k, W => by
    rw [show n + 1 + k = (n + k) + 1 by omega]
    conv_lhs => unfold checkRounds
    conv_rhs => unfold checkLoop
    refine bind_same fun b W1 h1 => ?_
    split
    · rfl
    refine bind_same fun _ W2 h2 => bind_same fun X W3 h3 => bind_same fun ret W4 h4 => bind_same fun _ W5 h5 => bind_same fun Y W6 h6 => ?_
    split
    · rfl
    · exact rounds_add

theorem check_more {n k : Nat} (ti : TI W) (hn : AllNested W) (hw : WI W) (hl : cc.level = 0 → W.level = 0) (hs : domainSize W + 1 < n) :
    solverCheck cc ck (n + k) W = solverCheck cc ck n W := by
  unfold solverCheck
  cases hv : curLevel W with
  | error e =>
    exact bind_same fun l W1 h1 => by rw [hv] at h1; cases h1
  | ok p =>
    have := checkWith_eq (stop := checkLoop cc ck p.1.level k) (ck := ck) ti hn hw hl hs
    refine Eq.trans ?_ this
    unfold checkWith
    refine bind_same fun l W1 h1 => bind_same fun X W2 h2 => ?_
    rw [hv] at h1
    injection h1 with h1
    subst h1
    split
    · rfl
    · exact rounds_add.symm

end Clingcon
