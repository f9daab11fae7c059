import Verif.Proof.GivenStep
import Verif.Proof.Nested

/-! Along sequences of calls, the bounds of variables are those given by the literals passed to `propagate`. -/
set_option linter.unusedSimpArgs false
set_option linter.unusedVariables false
namespace Clingcon
open Spec VarState

variable {α γ : Type} {W W0 W' : World} {cc : CC}

/-! ### Integrating a list of literals -/

theorem propagateLit_split {l : Int} {r : Bool} (h : propagateLit cc l W = .ok (r, W')) :
    updateDomain cc l { W with book := (W.book.consOf l).foldl Book.markTodo W.book } = .ok (r, W') := by
  unfold propagateLit at h
  rw [bind_iff] at h
  obtain ⟨_, W1, h1, h⟩ := h
  rw [modify_iff.mp h1] at h
  exact h

theorem tight_bounds {F F' : List VarState × Book} (h : Tight F F') (v : Nat) : loF F v ≤ loF F' v ∧ upF F' v ≤ upF F v := h.2 v

/-- After literals have been integrated, the bounds of the variables they are order literals of are set. -/
theorem propagateLits_fwd : ∀ {ls : List Int} {W W' : World}, TI W → (∀ l ∈ ls, (l.natAbs : Int) < W.nextLit) → propagateLits cc ls W = .ok (true, W') →
    ∀ l ∈ ls, l.natAbs ≠ 1 → ∀ v k, (OrdLit W' v k l → upF (frame W') v ≤ k) ∧ (OrdLit W' v k (-l) → k < loF (frame W') v)
  | [], W, W', _, _, _, l, hl => by cases hl
  | m :: ls, W, W', hi, hn, h, l, hl => by
    intro h1 v k
    unfold propagateLits at h
    rw [bind_iff] at h
    obtain ⟨b, W1, g, h⟩ := h
    cases b with
    | false =>
      obtain ⟨e, -⟩ := pure_iff.mp h
      cases e
    | true =>
      have h' : propagateLits cc ls W1 = .ok (true, W') := h
      have o := (kw_propagateLit (old_prim (N := W.nextLit) (W0 := W)).toPrimU.toPrimD).kw _ _ _ g (Old.refl hi)
      rcases List.mem_cons.mp hl with rfl | hl
      · have hm := hn l (List.mem_cons_self ..)
        obtain ⟨f1, f2⟩ := updateDomain_fwd (W := { W with book := (W.book.consOf l).foldl Book.markTodo W.book }) (hi.other rfl rfl rfl) h1 hm (propagateLit_split g) v k
        have o1 := (kw_propagateLits (old_prim (N := W1.nextLit) (W0 := W1)).toPrimU.toPrimD).kw _ _ _ h' (Old.refl o.ti)
        have t1 := (kw_propagateLits (tight_prim (F := frame W1)).toPrimD).kw _ _ _ h' (Tight.refl _)
        have := o.next
        constructor <;> intro hh
        · have := f1 (o1.old v k l hh h1 (by omega))
          have := (t1.2 v).2
          omega
        · have := f2 (o1.old v k (-l) hh (by rwa [Int.natAbs_neg]) (by rw [Int.natAbs_neg]; omega))
          have := (t1.2 v).1
          omega
      · have := o.next
        exact propagateLits_fwd o.ti (fun x hx => by have := hn x (List.mem_cons_of_mem _ hx); omega) h' l hl h1 v k

theorem level_of_levels (h : W'.book.levels = W.book.levels) : W'.level = W.level := by unfold World.level; rw [h]

/-- Off the top level, bounds only change to values of the literals that are integrated. -/
theorem propagateLits_deep : ∀ {ls : List Int} {W W' : World} {r : Bool}, TI W → BI (frame W) → cc.level ≠ 0 → 0 < W.level →
    propagateLits cc ls W = .ok (r, W') → Kept W W' ∧
    ∀ v, (upF (frame W') v = upF (frame W) v ∨ ∃ l ∈ ls, OrdLit W' v (upF (frame W') v) l) ∧
      (loF (frame W') v = loF (frame W) v ∨ ∃ l ∈ ls, OrdLit W' v (loF (frame W') v - 1) (-l))
  | [], W, W', r, hi, hb, hc, hl, h => by
    obtain ⟨-, rfl⟩ := pure_iff.mp h
    exact ⟨Kept.refl hi, fun v => ⟨Or.inl rfl, Or.inl rfl⟩⟩
  | m :: ls, W, W', r, hi, hb, hc, hl, h => by
    unfold propagateLits at h
    rw [bind_iff] at h
    obtain ⟨b, W1, g, h⟩ := h
    have hm : ({ W with book := (W.book.consOf m).foldl Book.markTodo W.book } : World).book.levels = W.book.levels := by
      have := (keep_marks (L := W.book.levels) (A := (alF (frame W), auF (frame W), (frame W).1.length)) (f := fun W => (W.book.consOf m).foldl Book.markTodo W.book)
        (fun W => markTodos_eff _ _)).keep W () _ rfl ⟨hb, rfl, fun _ _ _ _ _ => ⟨rfl, rfl⟩, rfl⟩
      exact this.lev
    obtain ⟨k1, p1⟩ := updateDomain_deep (W := { W with book := (W.book.consOf m).foldl Book.markTodo W.book }) (hi.other rfl rfl rfl) hc
      (by rw [level_of_levels hm]; exact hl) (propagateLit_split g)
    have k1 : Kept W W1 := ⟨k1.ti, k1.kept, k1.len, k1.mn, k1.mx⟩
    have ha := (keep_propagateLit (L := W.book.levels) (A := (alF (frame W), auF (frame W), (frame W).1.length))).keep _ _ _ g
      ⟨hb, rfl, fun _ _ _ _ _ => ⟨rfl, rfl⟩, rfl⟩
    cases b with
    | false =>
      obtain ⟨-, rfl⟩ := pure_iff.mp h
      exact ⟨k1, fun v => ⟨(p1 v).1.imp id (fun h => ⟨m, List.mem_cons_self .., h⟩), (p1 v).2.imp id (fun h => ⟨m, List.mem_cons_self .., h⟩)⟩⟩
    | true =>
      obtain ⟨k2, p2⟩ := propagateLits_deep k1.ti ha.bi hc (by rw [level_of_levels ha.lev]; exact hl) h
      refine ⟨k1.trans k2, fun v => ⟨?_, ?_⟩⟩
      · rcases (p2 v).1 with e | ⟨l, hl, e⟩
        · rw [e]
          exact (p1 v).1.imp id (fun h => ⟨m, List.mem_cons_self .., k2.kept _ _ _ h⟩)
        · exact Or.inr ⟨l, List.mem_cons_of_mem _ hl, e⟩
      · rcases (p2 v).2 with e | ⟨l, hl, e⟩
        · rw [e]
          exact (p1 v).2.imp id (fun h => ⟨m, List.mem_cons_self .., k2.kept _ _ _ h⟩)
        · exact Or.inr ⟨l, List.mem_cons_of_mem _ hl, e⟩

/-! ### The invariant -/

/-- Bounds reflect the literals passed on a level and below, and differ from the bounds on the top level only where a
literal has been passed. -/
structure TQ (W : World) (t : Told) (lo up : Nat → Int) : Prop where
  fwd : ∀ v k l, OrdLit W v k l → l.natAbs ≠ 1 → (t.done l → up v ≤ k) ∧ (t.done (-l) → k < lo v)
  rev : ∀ v, (up v < mxF (frame W) v → ∃ l, OrdLit W v (up v) l ∧ t.tried l) ∧ (mnF (frame W) v < lo v → ∃ l, OrdLit W v (lo v - 1) l ∧ t.tried (-l))
  known : ∀ l, t.tried l → l ≠ 0 ∧ (l.natAbs : Int) < W.nextLit
  sub : ∀ l, t.done l → t.tried l

/-- A property of all levels and the bounds on it. -/
def GS (Q : Told → (Nat → Int) → (Nat → Int) → Prop) (F : List VarState × Book) : List Lvl → List Told → (Nat → Int) → (Nat → Int) → Prop
  | [_], [t], lo, up => Q t lo up
  | l :: l' :: ls, t :: t' :: ts, lo, up => Q t lo up ∧ GS Q F (l' :: ls) (t' :: ts) (alF F l.level) (auF F l.level)
  | _, _, _, _ => False

theorem GS.map {Q Q' : Told → (Nat → Int) → (Nat → Int) → Prop} {F F' : List VarState × Book} (hq : ∀ t lo up, Q t lo up → Q' t lo up) :
    ∀ {ls : List Lvl} {t t' : Told} {ts : List Told} {lo up lo' up' : Nat → Int}, (ls.map (·.level)).Pairwise (· > ·) →
    (∀ l ∈ ls, 0 < l.level → alF F' l.level = alF F l.level ∧ auF F' l.level = auF F l.level) → Q' t' lo' up' → GS Q F ls (t :: ts) lo up →
    GS Q' F' ls (t' :: ts) lo' up'
  | [_], t, t', [], lo, up, lo', up', _, _, hd, _ => hd
  | l :: l' :: ls, t, t', s :: ts, lo, up, lo', up', hp, hs, hd, h => by
    refine ⟨hd, ?_⟩
    rw [List.map_cons, List.pairwise_cons] at hp
    have hl : l.level > l'.level := hp.1 _ (by simp)
    obtain ⟨e1, e2⟩ := hs l (List.mem_cons_self ..) (by omega)
    rw [e1, e2]
    have h2 := h.2
    refine GS.map hq hp.2 (fun x hx => hs x (List.mem_cons_of_mem _ hx)) ?_ h2
    refine hq _ _ _ ?_
    match ls, ts, h2 with
    | [], [], h2 => exact h2
    | _ :: _, _ :: _, h2 => exact h2.1
  | [], _, _, _, _, _, _, _, _, _, _, h => by simp [GS] at h
  | [_], _, _, _ :: _, _, _, _, _, _, _, _, h => by simp [GS] at h
  | _ :: _ :: _, _, _, [], _, _, _, _, _, _, _, h => by simp [GS] at h

theorem GS.head {Q : Told → (Nat → Int) → (Nat → Int) → Prop} {F : List VarState × Book} : ∀ {ls : List Lvl} {ts : List Told} {lo up : Nat → Int},
    GS Q F ls ts lo up → ∃ t ts', ts = t :: ts' ∧ Q t lo up
  | [_], [t], _, _, h => ⟨t, [], rfl, h⟩
  | _ :: _ :: _, t :: _ :: _, _, _, h => ⟨t, _, rfl, h.1⟩
  | [], _, _, _, h => by simp [GS] at h
  | [_], [], _, _, h => by simp [GS] at h
  | [_], _ :: _ :: _, _, _, h => by simp [GS] at h
  | _ :: _ :: _, [], _, _, h => by simp [GS] at h
  | _ :: _ :: _, [_], _, _, h => by simp [GS] at h

/-- The invariant. -/
structure GI (W : World) (ts : List Told) : Prop where
  wi : WI W
  ti : TI W
  gs : GS (TQ W) (frame W) W.book.levels ts (loF (frame W)) (upF (frame W))

theorem TQ.move {t : Told} {lo up : Nat → Int} (h : TQ W t lo up) (o : Old W.nextLit W W') (k : Kept W W') : TQ W' t lo up := by
  refine ⟨fun v n l hl h1 => ⟨fun hd => ?_, fun hd => ?_⟩, fun v => ?_, fun l hl => ?_, h.sub⟩
  · exact (h.fwd v n l (o.old v n l hl h1 (h.known l (h.sub l hd)).2) h1).1 hd
  · have := (h.known _ (h.sub _ hd)).2
    rw [Int.natAbs_neg] at this
    exact (h.fwd v n l (o.old v n l hl h1 this) h1).2 hd
  · rw [k.mx, k.mn]
    exact ⟨fun hh => ((h.rev v).1 hh).imp fun l hl => ⟨k.kept _ _ _ hl.1, hl.2⟩, fun hh => ((h.rev v).2 hh).imp fun l hl => ⟨k.kept _ _ _ hl.1, hl.2⟩⟩
  · have := h.known l hl
    have := o.next
    exact ⟨by omega, by omega⟩

/-- On the top level, the current bounds are the bounds on the top level. -/
theorem top_bounds (hw : WI W) (hl : W.book.levels.length = 1) : mnF (frame W) = loF (frame W) ∧ mxF (frame W) = upF (frame W) := by
  have b := hw.b0 hl
  constructor <;> funext v
  · have := b.stL v
    unfold lstF at this
    unfold mnF loF
    cases hv : (frame W).1[v]? with
    | none => rfl
    | some vs =>
      rw [hv] at this
      dsimp only at this ⊢
      unfold VarState.minBound
      rw [this]
      rfl
  · have := b.stU v
    unfold ustF at this
    unfold mxF upF
    cases hv : (frame W).1[v]? with
    | none => rfl
    | some vs =>
      rw [hv] at this
      dsimp only at this ⊢
      have : vs.upperStack = [] := by
        cases hs : vs.upperStack with
        | nil => rfl
        | cons a b => rw [hs] at this; cases this
      unfold VarState.maxBound
      rw [this]
      rfl

/-- Changes on the top level. -/
theorem GI.top {t : Told} (wi : WI W') (ti : TI W') (hl : W'.book.levels.length = 1)
    (fwd : ∀ v k l, OrdLit W' v k l → l.natAbs ≠ 1 → (t.done l → upF (frame W') v ≤ k) ∧ (t.done (-l) → k < loF (frame W') v))
    (known : ∀ l, t.tried l → l ≠ 0 ∧ (l.natAbs : Int) < W'.nextLit) (sub : ∀ l, t.done l → t.tried l) : GI W' [t] := by
  refine ⟨wi, ti, ?_⟩
  obtain ⟨e1, e2⟩ := top_bounds wi hl
  rw [wi.levels hl]
  refine ⟨fwd, fun v => ⟨fun h => ?_, fun h => ?_⟩, known, sub⟩
  · rw [e2] at h; omega
  · rw [e1] at h; omega

theorem GI.at_top {ts : List Told} (h : GI W ts) (hl : W.book.levels.length = 1) : ∃ t, ts = [t] ∧ TQ W t (loF (frame W)) (upF (frame W)) := by
  have := h.gs
  rw [h.wi.levels hl] at this
  match ts, this with
  | [t], this => exact ⟨t, rfl, this⟩

theorem WI.level_top (h : WI W) (hl : W.book.levels.length = 1) : W.level = 0 := by
  unfold World.level; rw [h.levels hl]; rfl

theorem WI.level_deep (h : WI W) (hl : W.book.levels.length ≠ 1) : 0 < W.level := by
  have hb := h.base
  have hd := h.bi.dec
  simp only [frame] at hd
  unfold World.level
  match hh : W.book.levels with
  | [] => rw [hh] at hb; cases hb
  | [_] => rw [hh] at hl; exact absurd rfl hl
  | x :: y :: zs =>
    rw [hh, List.map_cons, List.pairwise_cons] at hd
    have : x.level > y.level := hd.1 _ (by simp)
    show 0 < x.level
    omega

theorem WI.len_pos (h : WI W) : 0 < W.book.levels.length := by
  have hb := h.base
  cases hh : W.book.levels with
  | nil => rw [hh] at hb; cases hb
  | cons a b => simp

/-! ### Adding a constraint over one variable -/

theorem value_neg {log : List SEv} {l : Int} (h0 : l ≠ 0) : cc.value log (-l) = none ↔ cc.value log l = none := by
  unfold CC.value
  rw [Int.natAbs_neg]
  split_ifs <;> first | omega | skip
  all_goals (cases cc.atom log l.natAbs <;> simp)

theorem useLit_ord {lit : Int} {var : Nat} {value : Int} {r : Bool} (hi : TI W) (hl : 1 < lit.natAbs) (h : useLit cc lit var value W = .ok (r, W')) :
    W.nextLit ≤ W'.nextLit ∧ ∀ v k l, OrdLit W' v k l → OrdLit W v k l ∨ l = lit ∨ (l.natAbs : Int) = W.nextLit := by
  have hp := hi.pos
  unfold useLit at h
  rw [bind_iff] at h
  obtain ⟨o, W1, h1, h⟩ := h
  have hf : W1.vars = W.vars ∧ W.nextLit ≤ W1.nextLit ∧ ∀ l, o = some l → l = lit ∨ l = W.nextLit := by
    unfold freeLit at h1
    simp only [smok] at h1
    obtain ⟨e, W2, ⟨rfl, rfl⟩, h1⟩ := h1
    rcases h1 with ⟨hinv, rfl, rfl⟩ | ⟨-, l, W3, ⟨rfl, rfl⟩, _, W4, rfl, h1⟩
    · exact ⟨rfl, le_refl _, fun l hl => by injection hl with hl; exact Or.inl hl.symm⟩
    obtain ⟨b, W4, ⟨rfl, rfl⟩, h1⟩ := h1
    rcases h1 with ⟨-, rfl, rfl⟩ | ⟨-, b, W5, ⟨rfl, rfl⟩, h1⟩
    · exact ⟨rfl, by dsimp only; omega, fun l hl => by cases hl⟩
    rcases h1 with ⟨-, rfl, rfl⟩ | ⟨-, rfl, rfl⟩
    · exact ⟨rfl, by dsimp only; omega, fun l hl => by cases hl⟩
    · exact ⟨rfl, by dsimp only; omega, fun l hl => by injection hl with hl; exact Or.inr hl.symm⟩
  obtain ⟨ev, en, hf⟩ := hf
  cases o with
  | none =>
    obtain ⟨-, rfl⟩ := pure_iff.mp h
    exact ⟨en, fun v k l hl => Or.inl ((ord_vars ev).mp hl)⟩
  | some m =>
    simp only [smok] at h
    obtain ⟨_, W2, rfl, _, W3, rfl, _, W4, ⟨-, vs1, g1, -, rfl⟩, vs2, W5, ⟨g2, rfl⟩, vs', W6, ⟨g3, rfl⟩, _, W7, rfl, -, rfl⟩ := h
    dsimp only at g2
    refine ⟨en, fun v k l hh => ?_⟩
    have hv : W.vars[var]? = some vs2 := by rw [← ev]; exact g2
    have hs := setLiteral_eff (hi.wf _ _ hv) (by
      rcases hf m rfl with rfl | rfl
      · rintro rfl; simp at hl
      · omega) g3
    rcases ord_set (W := W) (v := var) (vs' := vs') (by show W1.vars.set var vs' = _; rw [ev]) hh with ⟨rfl, hq⟩ | ⟨-, hq⟩
    · have := (hs.mem _ _).mp hq
      split_ifs at this with hk
      · right
        rcases hf m rfl with e | e
        · left; rw [this]; exact e
        · right; rw [this, e]; omega
      · exact Or.inl ⟨vs2, hv, this⟩
    · exact Or.inl hq

theorem useFact_ord {t : Bool} {var : Nat} {value : Int} {r : Bool} (hi : TI W) (h : useFact t var value W = .ok (r, W')) :
    W'.nextLit = W.nextLit ∧ ∀ v k l, OrdLit W' v k l → OrdLit W v k l ∨ l.natAbs = 1 := by
  unfold useFact at h
  simp only [smok] at h
  obtain ⟨ps, W1, ⟨vs1, g1, rfl, rfl⟩, _, W2, rfl, vs2, W3, ⟨g2, rfl⟩, vs', W4, ⟨g3, rfl⟩, _, W5, rfl, -, rfl⟩ := h
  have h1 : (if t then TRUE_LIT else -TRUE_LIT : Int).natAbs = 1 := by cases t <;> rfl
  have hs := setLiteral_eff (hi.wf _ _ g2) (by intro h0; rw [h0] at h1; cases h1) g3
  refine ⟨rfl, fun v k l hh => ?_⟩
  rcases ord_set (W := W) (v := var) (vs' := vs') rfl hh with ⟨rfl, hq⟩ | ⟨-, hq⟩
  · have := (hs.mem _ _).mp hq
    by_cases hk : k = value
    · rw [if_pos hk] at this
      right; rw [this]; exact h1
    · rw [if_neg hk] at this
      exact Or.inl ⟨vs2, g2, this⟩
  · exact Or.inl hq

/-- A literal that becomes an order literal when a constraint over one variable is added is fresh or unassigned. -/
theorem addSimple_ord {lit co rhs : Int} {var : Nat} {s r : Bool} (hi : TI W) (h0 : lit ≠ 0) (hs : (lit.natAbs : Int) < W.nextLit)
    (ht : cc.value W.log TRUE_LIT = some true) (h : addSimple cc lit co var rhs s W = .ok (r, W')) :
    W.nextLit ≤ W'.nextLit ∧ ∀ v k l, OrdLit W' v k l → l.natAbs ≠ 1 → (l.natAbs : Int) < W.nextLit → OrdLit W v k l ∨ cc.value W.log l = none := by
  unfold addSimple at h
  rw [bind_iff] at h
  obtain ⟨f, W0, h0', h⟩ := h
  obtain ⟨rfl, rfl⟩ := qFalse_iff.mp h0'
  split at h
  · obtain ⟨-, rfl⟩ := pure_iff.mp h; exact ⟨le_refl _, fun v k l hl _ _ => Or.inl hl⟩
  rw [bind_iff] at h
  obtain ⟨truth, W1, h1, h⟩ := h
  obtain ⟨ht1, rfl⟩ := qValue_iff.mp h1
  dsimp only at h
  rw [bind_iff] at h
  obtain ⟨direct, W2, h2, h⟩ := h
  have hP := (old_prim (N := W1.nextLit) (W0 := W1))
  cases direct with
  | true =>
    obtain ⟨rfl, vs, hv, hno⟩ := canReuse_none hi.wf h2
    rw [if_pos rfl] at h
    cases truth with
    | some t =>
      obtain ⟨e, k⟩ := useFact_ord hi h
      refine ⟨by omega, fun v n l hl h1 _ => Or.inl ?_⟩
      rcases k v n l hl with hq | hq
      · exact hq
      · exact absurd hq h1
    | none =>
      dsimp only at h
      have hne : lit.natAbs ≠ 1 := by
        intro hn
        have ha : cc.atom W2.log 1 = some true := by
          unfold CC.value at ht
          rw [if_pos (by decide)] at ht
          exact ht
        unfold CC.value at ht1
        have e : (if co > 0 then lit else -lit).natAbs = 1 := by split_ifs <;> omega
        rw [e, ha] at ht1
        split_ifs at ht1 <;> cases ht1
      obtain ⟨e, k⟩ := useLit_ord (lit := if co < 0 then -lit else lit) hi (by split_ifs <;> omega) h
      refine ⟨e, fun v n l hl h1 h2 => ?_⟩
      rcases k v n l hl with hq | rfl | hq
      · exact Or.inl hq
      · right
        have hn : cc.value W2.log lit = none := by
          split_ifs at ht1
          · exact ht1.symm
          · exact (value_neg h0).mp ht1.symm
        split_ifs
        · exact (value_neg h0).mpr hn
        · exact hn
      · omega
  | false =>
    have hi2 := (kw_canReuse hP.toPrim0).kw _ _ _ h2 (Old.refl hi)
    rw [if_neg (by decide)] at h
    have : Old W1.nextLit W1 W' := by
      refine Kw.kw (P := Old W1.nextLit W1) ?_ _ _ _ h hi2
      kw_auto
    exact ⟨this.next, fun v k l hl h1 h2 => Or.inl (this.old v k l hl h1 h2)⟩

end Clingcon
