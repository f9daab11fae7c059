import Verif.Proof.TranslateSum
import Verif.Proof.Frame
import Verif.Spec.Translate

/-! The number of clauses produced by the translation of linear constraints. -/
set_option linter.unusedSimpArgs false
namespace Clingcon
open Spec

variable {W W' : World}

theorem getLiteral_count {cc : CC} {var : Nat} {value l : Int} (h : getLiteral cc var value W = .ok (l, W')) : clauseCount W'.log = clauseCount W.log := by
  unfold getLiteral at h
  simp only [smok] at h
  obtain ⟨vs, W1, ⟨hv, rfl⟩, h⟩ := h
  rcases h with ⟨h1, rfl, rfl⟩ | ⟨h1, h⟩
  · rfl
  rcases h with ⟨h2, rfl, rfl⟩ | ⟨h2, h⟩
  · rfl
  obtain ⟨p, W2, ⟨hr, rfl⟩, _, W3, rfl, h⟩ := h
  rcases h with ⟨h3, h⟩ | ⟨h3, rfl, rfl⟩
  · obtain ⟨n, W4, ⟨rfl, rfl⟩, vs', W5, ⟨hwr, rfl⟩, _, W6, rfl, _, W7, ⟨hne, vs2, hv2, hne2, rfl⟩, _, W8, rfl, _, W9, rfl, rfl, rfl⟩ := h
    rfl
  · rfl

/-- The frames of the estimate after taking a value. -/
def restE (es : CoVarVec) (f : EFrame) (fs : List EFrame) : List EFrame :=
  if f.i > 0 then ⟨f.i, f.n - 1, f.lower + stepOf es f.i, f.upper + stepOf es f.i⟩ :: fs else fs

theorem estTake_inv {es : CoVarVec} {f : EFrame} {fs : List EFrame} {est : Int} {p : List EFrame × Int} (h : estTake es f fs est W = .ok (p, W')) :
    p = (restE es f fs, if f.i > 0 then est - 1 else est) ∧ W' = W := by
  unfold estTake at h
  unfold restE
  by_cases hi : f.i > 0
  · rw [if_pos hi] at h ⊢
    rw [if_pos hi]
    obtain ⟨i, hi'⟩ : ∃ i, f.i = i + 1 := ⟨f.i - 1, by omega⟩
    rw [show f.i - 1 = i by omega] at h
    cases he : es[i]? with
    | none => rw [he] at h; cases h
    | some e =>
      rw [he] at h
      dsimp only at h
      have hs := stepOf_elem he
      rw [← hi'] at hs
      rw [hs]
      split_ifs at h ⊢ with hc
      · obtain ⟨rfl, rfl⟩ := pure_iff.mp h; exact ⟨rfl, rfl⟩
      · obtain ⟨rfl, rfl⟩ := pure_iff.mp h; exact ⟨rfl, rfl⟩
  · rw [if_neg hi] at h ⊢
    rw [if_neg hi]
    obtain ⟨rfl, rfl⟩ := pure_iff.mp h; exact ⟨rfl, rfl⟩

/-- The frame pushed by the estimate. -/
def pushE (F : List VarState × Book) (e : Int × Nat) (f : EFrame) : EFrame :=
  let s := estSplit e.1 (loF F e.2) (upF F e.2) f.lower f.upper
  ⟨f.i + 1, s.2.1 - s.1 + 1, s.2.2.1, s.2.2.2⟩

theorem getVar_bounds {v : Nat} {vs : VarState} (h : W.vars[v]? = some vs) : vs.lower = loF (frame W) v ∧ vs.upper = upF (frame W) v := by
  unfold loF upF frame
  simp only [List.getElem?_map, h, Option.map_some]
  exact ⟨rfl, rfl⟩

inductive EstStep (F : List VarState × Book) (es : CoVarVec) (maximum : Int) (f : EFrame) (fs : List EFrame) (est : Int) : List EFrame → Int → Prop
  | pop : f.n ≤ 0 → EstStep F es maximum f fs est fs est
  | leaf : 0 < f.n → f.lower < 0 → (if f.i > 0 then est - 1 else est) + 1 < maximum →
      EstStep F es maximum f fs est (restE es f fs) ((if f.i > 0 then est - 1 else est) + 1)
  | push (e : Int × Nat) : 0 < f.n → 0 ≤ f.lower → f.upper < 0 → es[f.i]? = some e → (if f.i > 0 then est - 1 else est) + (pushE F e f).n < maximum →
      EstStep F es maximum f fs est (pushE F e f :: restE es f fs) ((if f.i > 0 then est - 1 else est) + (pushE F e f).n)

theorem estStep_inv {es : CoVarVec} {maximum : Int} {f : EFrame} {fs : List EFrame} {est : Int} {p : List EFrame × Int}
    (h : estStep es maximum f fs est W = .ok (some p, W')) : EstStep (frame W) es maximum f fs est p.1 p.2 ∧ W' = W := by
  have hW := reads_estStep.reads _ _ _ h
  refine ⟨?_, hW⟩
  unfold estStep at h
  by_cases hn : f.n ≤ 0
  · rw [if_pos hn] at h
    obtain ⟨e, -⟩ := pure_iff.mp h
    injection e with e
    rw [e]
    exact .pop hn
  · rw [if_neg hn] at h
    obtain ⟨q, W1, h1, h2⟩ := bind_iff.mp h
    obtain ⟨rfl, rfl⟩ := estTake_inv h1
    dsimp only at h2
    by_cases hl : f.lower < 0
    · rw [if_pos hl] at h2
      by_cases hm : (if f.i > 0 then est - 1 else est) + 1 ≥ maximum
      · rw [if_pos hm] at h2; obtain ⟨e, -⟩ := pure_iff.mp h2; cases e
      · rw [if_neg hm] at h2; obtain ⟨e, -⟩ := pure_iff.mp h2
        injection e with e
        rw [e]
        exact .leaf (by omega) hl (by omega)
    · rw [if_neg hl] at h2
      obtain ⟨u, W2, h3, h4⟩ := bind_iff.mp h2
      simp only [smok, decide_eq_true_eq] at h3
      obtain ⟨hu, rfl⟩ := h3
      cases he : es[f.i]? with
      | none => rw [he] at h4; cases h4
      | some e =>
        rw [he] at h4
        dsimp only at h4
        obtain ⟨vs, W3, h5, h6⟩ := bind_iff.mp h4
        obtain ⟨hv, rfl⟩ := getVar_iff.mp h5
        obtain ⟨b1, b2⟩ := getVar_bounds hv
        rw [b1, b2] at h6
        have hp : (if f.i > 0 then est - 1 else est) + (pushE (frame W3) e f).n < maximum → EstStep (frame W3) es maximum f fs est (pushE (frame W3) e f :: restE es f fs) ((if f.i > 0 then est - 1 else est) + (pushE (frame W3) e f).n) :=
          fun hx => .push e (by omega) (by omega) hu he hx
        change (if (if f.i > 0 then est - 1 else est) + (pushE (frame W3) e f).n ≥ maximum then pure none else
          pure (some (pushE (frame W3) e f :: restE es f fs, (if f.i > 0 then est - 1 else est) + (pushE (frame W3) e f).n)) : SM _) W3 = _ at h6
        by_cases hm : (if f.i > 0 then est - 1 else est) + (pushE (frame W3) e f).n ≥ maximum
        · rw [if_pos hm] at h6; obtain ⟨e, -⟩ := pure_iff.mp h6; cases e
        · rw [if_neg hm] at h6
          obtain ⟨e2, -⟩ := pure_iff.mp h6
          injection e2 with e2
          rw [e2]
          exact hp (by omega)

/-- The frames of the translation after taking a value. -/
def restC (es : CoVarVec) (f : CFrame) (fs : List CFrame) : List CFrame :=
  if f.i > 0 then
    ⟨f.i, f.j, if (es[f.i - 1]?.elim 0 Prod.fst) > 0 then f.vl else f.vl + 1, if (es[f.i - 1]?.elim 0 Prod.fst) > 0 then f.vu - 1 else f.vu,
      f.lower + stepOf es f.i, f.upper + stepOf es f.i⟩ :: fs
  else fs

theorem clauseTake_inv {cc : CC} {es : CoVarVec} {clit : Int} {f : CFrame} {fs : List CFrame} {p : List CFrame × Int}
    (h : clauseTake cc es clit f fs W = .ok (p, W')) : p.1 = restC es f fs ∧ frame W' = frame W ∧ clauseCount W'.log = clauseCount W.log := by
  unfold clauseTake at h
  unfold restC
  by_cases hi : f.i > 0
  · rw [if_pos hi] at h ⊢
    obtain ⟨i, hi'⟩ : ∃ i, f.i = i + 1 := ⟨f.i - 1, by omega⟩
    rw [show f.i - 1 = i by omega] at h ⊢
    cases he : es[i]? with
    | none => rw [he] at h; cases h
    | some e =>
      rw [he] at h
      dsimp only at h
      have hs := stepOf_elem he
      rw [← hi'] at hs
      rw [hs]
      show p.1 = (⟨f.i, f.j, if e.1 > 0 then f.vl else f.vl + 1, if e.1 > 0 then f.vu - 1 else f.vu, _, _⟩ : CFrame) :: fs ∧ _
      by_cases hc : e.1 > 0
      · rw [if_pos hc] at h
        rw [if_pos hc, if_pos hc, if_pos hc]
        obtain ⟨l, W1, h1, h2⟩ := bind_iff.mp h
        obtain ⟨rfl, rfl⟩ := pure_iff.mp h2
        exact ⟨rfl, fr_getLiteral.fr _ _ _ h1, getLiteral_count h1⟩
      · rw [if_neg hc] at h
        rw [if_neg hc, if_neg hc, if_neg hc]
        obtain ⟨l, W1, h1, h2⟩ := bind_iff.mp h
        obtain ⟨rfl, rfl⟩ := pure_iff.mp h2
        exact ⟨rfl, fr_getLiteral.fr _ _ _ h1, getLiteral_count h1⟩
  · rw [if_neg hi] at h ⊢
    obtain ⟨rfl, rfl⟩ := pure_iff.mp h
    exact ⟨rfl, rfl, rfl⟩

theorem reads_clausePut {cl : List Int} {j : Nat} {l : Int} : Reads (clausePut cl j l) := by
  unfold clausePut
  split
  · exact Reads.bind Reads.assertS (fun _ => Reads.pure)
  · exact Reads.pure

/-- The frame pushed by the translation. -/
def pushC (F : List VarState × Book) (e : Int × Nat) (f : CFrame) (j : Nat) : CFrame :=
  let s := clauseSplit e.1 (loF F e.2) (upF F e.2) f.lower f.upper
  ⟨f.i + 1, j, s.1, s.2.1, s.2.2.1, s.2.2.2⟩

inductive ClauseStep (F : List VarState × Book) (es : CoVarVec) (f : CFrame) (fs : List CFrame) (n n' : Nat) : Option (List CFrame × List Int) → Prop
  | pop (cl) : f.vu < f.vl → n' = n → ClauseStep F es f fs n n' (some (fs, cl))
  | fail : f.vl ≤ f.vu → f.lower < 0 → n' ≤ n + 1 → ClauseStep F es f fs n n' none
  | leaf (cl) : f.vl ≤ f.vu → f.lower < 0 → n' ≤ n + 1 → ClauseStep F es f fs n n' (some (restC es f fs, cl))
  | push (e : Int × Nat) (j : Nat) (cl) : f.vl ≤ f.vu → 0 ≤ f.lower → es[f.i]? = some e → n' = n →
      ClauseStep F es f fs n n' (some (pushC F e f j :: restC es f fs, cl))

theorem clauseStep_inv {cc : CC} {es : CoVarVec} {clit : Int} {b : Bool} {f : CFrame} {fs : List CFrame} {cl : List Int} {r : Option (List CFrame × List Int)}
    (h : clauseStep cc es clit b f fs cl W = .ok (r, W')) :
    ClauseStep (frame W) es f fs (clauseCount W.log) (clauseCount W'.log) r ∧ frame W' = frame W := by
  unfold clauseStep at h
  by_cases hv : f.vl > f.vu
  · rw [if_pos hv] at h
    obtain ⟨rfl, rfl⟩ := pure_iff.mp h
    exact ⟨.pop _ hv rfl, rfl⟩
  rw [if_neg hv] at h
  obtain ⟨p, W1, h1, g1⟩ := bind_iff.mp h
  obtain ⟨e1, e2, e3⟩ := clauseTake_inv h1
  obtain ⟨q, W2, h2, g2⟩ := bind_iff.mp g1
  obtain rfl := reads_clausePut.reads _ _ _ h2
  rw [← e3, ← e2]
  by_cases hl : f.lower < 0
  · rw [if_pos hl] at g2
    cases b with
    | true =>
      rw [if_pos rfl] at g2
      obtain ⟨rfl, rfl⟩ := pure_iff.mp g2
      rw [e1]
      exact ⟨.leaf _ (by omega) hl (by omega), rfl⟩
    | false =>
      rw [if_neg (by simp)] at g2
      obtain ⟨ret, W3, h3, g3⟩ := bind_iff.mp g2
      obtain ⟨-, rfl⟩ := addClause_iff.mp h3
      obtain ⟨rfl, rfl⟩ := pure_iff.mp g3
      rw [e1]
      refine ⟨?_, rfl⟩
      cases ret with
      | true => exact .leaf _ (by omega) hl (by simp [clauseCount])
      | false => exact .fail (by omega) hl (by simp [clauseCount])
  · rw [if_neg hl] at g2
    obtain ⟨u, W3, h3, g4⟩ := bind_iff.mp g2
    obtain rfl := Reads.assertS.reads _ _ _ h3
    cases he : es[f.i]? with
    | none => rw [he] at g4; cases g4
    | some e =>
      rw [he] at g4
      dsimp only at g4
      obtain ⟨vs, W4, h4, g5⟩ := bind_iff.mp g4
      obtain ⟨hv, rfl⟩ := getVar_iff.mp h4
      obtain ⟨b1, b2⟩ := getVar_bounds hv
      rw [b1, b2] at g5
      obtain ⟨u, W5, h5, g6⟩ := bind_iff.mp g5
      obtain rfl := Reads.assertS.reads _ _ _ h5
      obtain ⟨u, W6, h6, g7⟩ := bind_iff.mp g6
      obtain rfl := Reads.assertS.reads _ _ _ h6
      obtain ⟨rfl, rfl⟩ := pure_iff.mp g7
      rw [e1]
      exact ⟨.push e _ _ (by omega) (by omega) he rfl, rfl⟩

/-- Frames of the estimate and of the translation that correspond. -/
structure Same (a : EFrame) (b : CFrame) : Prop where
  i : a.i = b.i
  n : a.n = b.vu - b.vl + 1
  lower : a.lower = b.lower
  upper : a.upper = b.upper

theorem same_rest {es : CoVarVec} {a : EFrame} {b : CFrame} {fe : List EFrame} {fc : List CFrame} (h : Same a b) (hs : List.Forall₂ Same fe fc) :
    List.Forall₂ Same (restE es a fe) (restC es b fc) := by
  unfold restE restC
  rw [h.i]
  split_ifs
  · refine List.Forall₂.cons ⟨rfl, ?_, by rw [h.lower], by rw [h.upper]⟩ hs
    rw [h.n]; dsimp only; omega
  · refine List.Forall₂.cons ⟨rfl, ?_, by rw [h.lower], by rw [h.upper]⟩ hs
    rw [h.n]; dsimp only; omega
  · exact hs

theorem same_push {F : List VarState × Book} {e : Int × Nat} {a : EFrame} {b : CFrame} {j : Nat} (h : Same a b) :
    Same (pushE F e a) (pushC F e b j) := by
  unfold pushE pushC estSplit clauseSplit
  rw [h.i, h.lower, h.upper]
  split_ifs with hc
  · dsimp only
    have e1 : ∀ a b c : Int, max a (b + 1) = c + 1 ↔ max (a - 1) b = c := by intros; omega
    have h1 : max (loF F e.2) (floordiv (b.upper + e.1 * upF F e.2) e.1 + 1) = max (loF F e.2 - 1) (floordiv (b.upper + e.1 * upF F e.2) e.1) + 1 := by omega
    have h2 : min (upF F e.2) (floordiv (b.lower + e.1 * loF F e.2) e.1 + 1) = min (upF F e.2 - 1) (floordiv (b.lower + e.1 * loF F e.2) e.1) + 1 := by omega
    rw [h1, h2]
    exact ⟨rfl, by dsimp only; omega, by dsimp only; ring, by dsimp only; ring⟩
  · exact ⟨rfl, rfl, rfl, rfl⟩

/-- The values remaining on a stack. -/
def pending : List EFrame → Int
  | [] => 0
  | f :: fs => (if f.i > 0 then f.n else 0) + pending fs

/-- Well-formed frames of the estimate. -/
structure EWF (lo up : Nat → Int) (es : CoVarVec) (f : EFrame) : Prop where
  n : 0 ≤ f.n
  upper : f.upper = f.lower - rngSum lo up (es.drop f.i)

theorem pending_nonneg {lo up : Nat → Int} {es : CoVarVec} {fs : List EFrame} (h : ∀ f ∈ fs, EWF lo up es f) : 0 ≤ pending fs := by
  induction fs with
  | nil => exact le_refl _
  | cons f fs ih =>
    have := ih (fun g hg => h g (by simp [hg]))
    have := (h f (by simp)).n
    unfold pending
    split_ifs <;> omega

theorem ewf_rest {lo up : Nat → Int} {es : CoVarVec} {f : EFrame} {fs : List EFrame} (h : ∀ g ∈ f :: fs, EWF lo up es g) (hn : 0 < f.n) :
    ∀ g ∈ restE es f fs, EWF lo up es g := by
  unfold restE
  have hf := h f (by simp)
  split_ifs
  · intro g hg
    rcases List.mem_cons.mp hg with rfl | hg
    · exact ⟨by dsimp only; omega, by dsimp only; rw [hf.upper]; ring⟩
    · exact h g (by simp [hg])
  · exact fun g hg => h g (by simp [hg])

theorem pending_rest {es : CoVarVec} {f : EFrame} {fs : List EFrame} {est : Int} :
    (if f.i > 0 then est - 1 else est) - pending (restE es f fs) = est - pending (f :: fs) := by
  unfold restE
  split_ifs with h
  · unfold pending; simp only [h, if_true]; omega
  · show est - pending fs = est - ((if f.i > 0 then f.n else 0) + pending fs)
    rw [if_neg h]; omega

theorem rngSum_nonneg {lo up : Nat → Int} {es : CoVarVec} (h : ∀ e ∈ es, lo e.2 ≤ up e.2) : 0 ≤ rngSum lo up es := by
  unfold rngSum
  refine List.sum_nonneg (fun x hx => ?_)
  obtain ⟨e, he, rfl⟩ := List.mem_map.mp hx
  have := h e he
  refine mul_nonneg ?_ (by omega)
  split_ifs <;> omega

theorem ewf_push {F : List VarState × Book} {es : CoVarVec} {e : Int × Nat} {f : EFrame} (hb : ∀ e ∈ es, loF F e.2 ≤ upF F e.2)
    (hne : ∀ e ∈ es, e.1 ≠ 0) (hf : EWF (loF F) (upF F) es f) (hl : 0 ≤ f.lower) (hu : f.upper < 0) (he : es[f.i]? = some e) :
    EWF (loF F) (upF F) es (pushE F e f) := by
  have hme := List.mem_of_getElem? he
  have hbe := hb e hme
  have hR : 0 ≤ rngSum (loF F) (upF F) (es.drop (f.i + 1)) := rngSum_nonneg (fun x hx => hb x (List.mem_of_mem_drop hx))
  have hU := hf.upper
  rw [rngSum_drop he] at hU
  have hs := same_push (F := F) (e := e) (a := f) (b := ⟨f.i, 0, 0, f.n - 1, f.lower, f.upper⟩) (j := 0) ⟨rfl, by dsimp only; omega, rfl, rfl⟩
  refine ⟨?_, ?_⟩
  · rw [hs.n]
    unfold pushC clauseSplit
    by_cases hc : e.1 > 0
    · rw [if_pos hc] at hU ⊢
      have := (split_pos (s := loF F e.2) (D := 0) (L := f.lower) (U := f.upper) hc (le_refl _) hbe (le_refl _) hR hl (by rw [hU]; ring) hu rfl rfl).1
      dsimp only
      omega
    · have hne := hne e hme
      rw [if_neg hc] at hU ⊢
      have := (split_neg (co := e.1) (s := loF F e.2) (D := 0) (L := f.lower) (U := f.upper) (by omega) (le_refl _) hbe (le_refl _) hR hl (by rw [hU]; ring) hu rfl rfl).1
      dsimp only
      omega
  · unfold pushE estSplit
    by_cases hc : e.1 > 0
    · rw [if_pos hc] at hU ⊢; dsimp only; rw [hU]; ring
    · rw [if_neg hc] at hU ⊢; dsimp only; rw [hU]; ring

/-- A stack of the translation adds as many clauses as estimated. -/
theorem loop_count {cc : CC} {es : CoVarVec} {clit maximum : Int} {b : Bool} {F : List VarState × Book} {W1 : World} (hW : frame W1 = F)
    (hb : ∀ e ∈ es, loF F e.2 ≤ upF F e.2) (hne : ∀ e ∈ es, e.1 ≠ 0) :
    ∀ (k : Nat) (fe : List EFrame) (est : Int), estLoop es maximum k fe est W1 = .ok (true, W1) → (∀ f ∈ fe, EWF (loF F) (upF F) es f) →
      (est < maximum ∨ ∃ f ∈ fe, f.i = 0 ∧ 0 < f.n) →
      ∀ (k' : Nat) (fc : List CFrame) (cl : List Int) (r : Bool) (W W' : World), List.Forall₂ Same fe fc → frame W = F →
        clauseLoop cc es clit b k' fc cl W = .ok (r, W') → clauseCount W'.log + (est - pending fe) < clauseCount W.log + maximum := by
  intro k
  induction k with
  | zero =>
    intro fe est h _ hm k' fc cl r W W' hs hF hc
    cases hs with
    | nil =>
      have : W' = W := by
        cases k' <;> unfold clauseLoop at hc <;> exact (pure_iff.mp hc).2
      rw [this]
      rcases hm with hm | ⟨f, hf, -⟩
      · simp only [pending]; omega
      · cases hf
    | cons _ _ => cases h
  | succ k ih =>
    intro fe est h hwf hm k' fc cl r W W' hs hF hc
    cases hs with
    | nil =>
      have : W' = W := by
        cases k' <;> unfold clauseLoop at hc <;> exact (pure_iff.mp hc).2
      rw [this]
      rcases hm with hm | ⟨f, hf, -⟩
      · simp only [pending]; omega
      · cases hf
    | @cons fE fC fsE fsC hfs hss =>
      have hfwf := hwf fE (by simp)
      unfold estLoop at h
      obtain ⟨o, W2, h1, h2⟩ := bind_iff.mp h
      cases o with
      | none => obtain ⟨e, -⟩ := pure_iff.mp h2; cases e
      | some p =>
        obtain ⟨hst, rfl⟩ := estStep_inv h1
        rw [hW] at hst
        dsimp only at h2
        cases k' with
        | zero => cases hc
        | succ k' =>
          unfold clauseLoop at hc
          obtain ⟨o, W3, h3, h4⟩ := bind_iff.mp hc
          obtain ⟨hct, hF3⟩ := clauseStep_inv h3
          rw [hF] at hct hF3
          have hn := hfs.n
          have hlow := hfs.lower
          obtain ⟨p1, p2⟩ := p
          dsimp only at h2 hst
          have hpr := pending_rest (es := es) (f := fE) (fs := fsE) (est := est)
          cases hst with
          | pop hle =>
            cases hct with
            | pop cl' hv hcnt =>
              have hz : fE.n = 0 := by have := hfwf.n; omega
              have := ih _ est h2 (fun g hg => hwf g (by simp [hg])) (by
                rcases hm with hm | ⟨g, hg, hg1, hg2⟩
                · exact Or.inl hm
                · rcases List.mem_cons.mp hg with rfl | hg
                  · omega
                  · exact Or.inr ⟨g, hg, hg1, hg2⟩) k' _ _ r W3 W' hss hF3 h4
              have e : pending (fE :: fsE) = pending fsE := by
                show (if fE.i > 0 then fE.n else 0) + pending fsE = _
                rw [hz]; simp
              rw [e]
              omega
            | fail hv => omega
            | leaf cl' hv => omega
            | push e j cl' hv => omega
          | leaf hpos hneg hlt =>
            have hrest := ewf_rest hwf hpos
            cases hct with
            | pop cl' hv hcnt => omega
            | fail hv hl hcnt =>
              obtain ⟨-, rfl⟩ := pure_iff.mp h4
              have := pending_nonneg hrest
              omega
            | leaf cl' hv hl hcnt =>
              have := ih _ _ h2 hrest (Or.inl hlt) k' _ _ r W3 W' (same_rest hfs hss) hF3 h4
              omega
            | push e j cl' hv hl => omega
          | push e hpos hge hu he hlt =>
            have hrest := ewf_rest hwf hpos
            cases hct with
            | pop cl' hv hcnt => omega
            | fail hv hl hcnt => omega
            | leaf cl' hv hl hcnt => omega
            | push e' j cl' hv hl he' hcnt =>
              rw [hfs.i] at he
              rw [he] at he'
              injection he' with he'
              subst he'
              rw [← hfs.i] at he
              have hpw := ewf_push hb hne hfwf hge hu he
              have := ih _ _ h2 (fun g hg => by
                rcases List.mem_cons.mp hg with rfl | hg
                · exact hpw
                · exact hrest g hg) (Or.inl hlt) k' _ _ r W3 W' (List.Forall₂.cons (same_push hfs) (same_rest hfs hss)) hF3 h4
              have e2 : pending (pushE F e fE :: restE es fE fsE) = (pushE F e fE).n + pending (restE es fE fsE) := by
                show (if (pushE F e fE).i > 0 then (pushE F e fE).n else 0) + _ = _
                rw [if_pos (show (pushE F e fE).i > 0 from Nat.succ_pos _)]
              rw [e2] at this
              omega

theorem translate_count {cc : CC} {es : CoVarVec} {lit lower upper maximum : Int} {lo r : Bool} {k k' : Nat}
    (hb : ∀ e ∈ es, loF (frame W) e.2 ≤ upF (frame W) e.2) (hne : ∀ e ∈ es, e.1 ≠ 0) (hU : upper = lower - rngSum (loF (frame W)) (upF (frame W)) es)
    (he : clauseEstimate k es lower upper maximum W = .ok (true, W)) (hc : clauseTranslate cc k' lit es lower upper lo W = .ok (r, W')) :
    clauseCount W'.log < clauseCount W.log + maximum := by
  unfold clauseTranslate at hc
  obtain ⟨b, W1, h1, h2⟩ := bind_iff.mp hc
  obtain ⟨-, rfl⟩ := qFalse_iff.mp h1
  have := loop_count rfl hb hne k _ _ he (fun f hf => by
    rw [List.mem_singleton] at hf; subst hf
    exact ⟨Int.one_nonneg, hU⟩) (Or.inr ⟨_, List.mem_singleton_self _, rfl, Int.one_pos⟩) k' _ _ r W1 W'
    (List.Forall₂.cons ⟨rfl, rfl, rfl, rfl⟩ List.Forall₂.nil) rfl h2
  simpa [pending] using this

end Clingcon
