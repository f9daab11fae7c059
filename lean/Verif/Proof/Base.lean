import Verif.Proof.Keep

/-! The bookkeeping on the top level: adding and removing variables and constraints. -/
set_option linter.unusedSimpArgs false
namespace Clingcon
open Spec VarState

variable {W W' : World} {F : List VarState × Book}

/-- The lowest level. -/
def baseLvl : Lvl := ⟨0, 0, 0, 0, 0⟩

/-- The invariant of the bookkeeping on the top level. -/
structure B0 (F : List VarState × Book) : Prop where
  lev : F.2.levels = [baseLvl]
  lenW : F.2.watches.length = F.1.length
  lenL : F.2.ldiff.length = F.1.length
  lenU : F.2.udiff.length = F.1.length
  ul : F.2.undoLower = []
  uu : F.2.undoUpper = []
  stL : ∀ v, lstF F v = []
  stU : ∀ v, ustF F v = []
  nnL : ∀ v, 0 ≤ ldF F v
  nnU : ∀ v, 0 ≤ -udF F v
  cL : ∀ v, v ∈ F.2.inLdiff ↔ ldF F v ≠ 0
  cU : ∀ v, v ∈ F.2.inUdiff ↔ udF F v ≠ 0
  ndL : F.2.inLdiff.Nodup
  ndU : F.2.inUdiff.Nodup
  inac : ∀ (n : Nat) c, F.2.cs[n]? = some c → 0 < c.inactive → n ∈ F.2.inactive ∧ c.inactive = 1
  track : ∀ (n : Nat) c, F.2.cs[n]? = some c → c.alive = true →
    Counted c (fun v => loF F v - ldF F v) (fun v => upF F v - udF F v) ∧
    ∀ v, (((wtF F v).filter (fun w => w.2 == n)).map (·.1)).Perm (own c v) ∧ F.2.removed.filter (fun r => r.1 == v && r.2.2 == n) = []
  rngW : ∀ v, ∀ w ∈ wtF F v, w.2 < F.2.cs.length
  rngR : ∀ r ∈ F.2.removed, r.1 < F.1.length ∧ r.2.2 < F.2.cs.length
  rngI : ∀ n ∈ F.2.inactive, n < F.2.cs.length
  rngT : ∀ n ∈ F.2.todo, n < F.2.cs.length

theorem cuts_base {α : Type} {off : Lvl → Nat} (h : off baseLvl = 0) {u : List α} : cuts off [baseLvl] u = [(0, u)] := by
  show [(baseLvl.level, u.drop (off baseLvl))] = _
  rw [h]; rfl

theorem cutOK_base {α : Type} {off : Lvl → Nat} (h : off baseLvl = 0) {u : List α} : CutOK off [baseLvl] u := by
  refine ⟨by omega, ?_⟩
  rw [h, List.take_zero]; rfl

theorem BI.base (h : BI F) (hl : F.2.levels = [baseLvl]) : B0 F := by
  have sL := h.low
  have sU := h.upp
  have iA := h.inac'
  rw [hl, cuts_base rfl] at sL sU iA
  have hs : (viewF F).segs = [(0, F.2.removed)] := by simp only [viewF]; rw [hl, cuts_base rfl]
  have stL : ∀ v, lstF F v = [] := by
    intro v
    rw [List.eq_nil_iff_forall_not_mem]
    intro p hp
    obtain ⟨h1, s, h2, h3⟩ := sL.opened v p hp
    rw [List.mem_singleton] at h2; subst h2
    simp only at h3; omega
  have stU : ∀ v, ustF F v = [] := by
    intro v
    rw [List.eq_nil_iff_forall_not_mem]
    intro p hp
    obtain ⟨h1, s, h2, h3⟩ := sU.opened v p hp
    rw [List.mem_singleton] at h2; subst h2
    simp only at h3; omega
  refine ⟨hl, h.lenW, h.lenL, h.lenU, sL.zero _ (List.mem_cons_self ..) rfl, sU.zero _ (List.mem_cons_self ..) rfl, stL, stU, sL.nonneg, sU.nonneg, sL.chgd,
    fun v => ?_, sL.nodupC, sU.nodupC, ?_, ?_, h.rngW, h.rngR, h.rngI, h.rngT⟩
  · have := sU.chgd v
    simpa using this
  · intro n c hc h0
    obtain ⟨s, h1, h2, h3⟩ := iA n c hc h0
    rw [List.mem_singleton] at h1; subst h1
    exact ⟨h2, h3⟩
  · intro n c hc ha
    have hr : ∀ s ∈ (viewF F).segs, c.removableAt s.1 = false := by
      intro s hs'
      rw [hs, List.mem_singleton] at hs'; subst hs'
      cases hx : c.removableAt 0 with
      | false => rfl
      | true => have := removableAt_pos hx; omega
    refine ⟨(h.track n c hc ha).counted hr, fun v => ?_⟩
    obtain ⟨h1, h2⟩ := (h.track n c hc ha).pres hr v
    refine ⟨h1, ?_⟩
    exact h2 (0, F.2.removed) (by rw [hs]; exact List.mem_cons_self ..)

theorem removableAt_zero {c : CState} : c.removableAt 0 = false := by
  cases hx : c.removableAt 0 with
  | false => rfl
  | true => have := removableAt_pos hx; omega

theorem B0.bi (h : B0 F) : BI F := by
  have hl := h.lev
  have hs : (viewF F).segs = [(0, F.2.removed)] := by simp only [viewF]; rw [hl, cuts_base rfl]
  refine ⟨h.lenW, h.lenL, h.lenU, ?_, ?_, ?_, ?_, ?_, ?_, ?_, ?_, ?_, ?_, ?_, h.rngW, h.rngR, h.rngI, h.rngT⟩
  · rw [hl]; simp
  · rw [hl]; exact cutOK_base rfl
  · rw [hl]; exact cutOK_base rfl
  · rw [hl]; exact cutOK_base rfl
  · rw [hl]; exact cutOK_base rfl
  · rw [hl, cuts_base rfl, h.ul]
    refine ⟨by simp, by simp, by simp, fun v p hp => ?_, fun v => ?_, fun v => ?_, fun v p hp => ?_, h.nnL, h.cL, h.ndL, ?_⟩
    · rw [h.stL v] at hp; cases hp
    · rw [h.stL v]; exact List.Pairwise.nil
    · rw [h.stL v]; exact List.Pairwise.nil
    · rw [h.stL v] at hp; cases hp
    · intro v _ s hs h0; injection hs with hs; subst hs; simp at h0
  · rw [hl, cuts_base rfl, h.uu]
    refine ⟨by simp, by simp, by simp, fun v p hp => ?_, fun v => ?_, fun v => ?_, fun v p hp => ?_, h.nnU, fun v => ?_, h.ndU, ?_⟩
    · rw [h.stU v] at hp; cases hp
    · rw [h.stU v]; exact List.Pairwise.nil
    · rw [h.stU v]; exact List.Pairwise.nil
    · rw [h.stU v] at hp; cases hp
    · rw [h.cU]; simp
    · intro v _ s hs h0; injection hs with hs; subst hs; simp at h0
  · rw [hl, cuts_base rfl]
    intro s hs h0; rw [List.mem_singleton] at hs; subst hs; simp at h0
  · rw [hl, cuts_base rfl]
    intro n c hc h0
    obtain ⟨h1, h2⟩ := h.inac n c hc h0
    exact ⟨(0, F.2.inactive), List.mem_cons_self .., h1, h2⟩
  · intro n c hc ha
    obtain ⟨h1, h2⟩ := h.track n c hc ha
    refine Tracked.intro h1 ?_ ?_
    · intro s hs'; rw [hs, List.mem_singleton] at hs'; subst hs'; exact removableAt_zero
    · intro v
      refine ⟨(h2 v).1, fun s hs' => ?_⟩
      rw [hs, List.mem_singleton] at hs'; subst hs'
      exact (h2 v).2
  · intro n _ c _ l hl'
    rw [hl, List.mem_singleton] at hl'; subst hl'
    exact removableAt_zero

/-! ### Variables -/

theorem B0.addVar (h : B0 (frame W)) {lo hi : Int} {v : Nat} (hx : addVar lo hi W = .ok (v, W')) : B0 (frame W') ∧ v = W.vars.length ∧
    (∀ w, w < W.vars.length → loF (frame W') w = loF (frame W) w ∧ upF (frame W') w = upF (frame W) w) ∧
    W'.book.inLdiff = W.book.inLdiff ∧ W'.book.inUdiff = W.book.inUdiff := by
  unfold Clingcon.addVar at hx
  injection hx with hx
  obtain ⟨rfl, rfl⟩ := Prod.mk.inj hx
  have hlen : (frame W).1.length = W.vars.length := by simp [frame]
  have hget : ∀ w, ((W.vars ++ [({ lower := lo, upper := hi } : VarState)]).map VarState.bounds)[w]? =
      if w = W.vars.length then some ({ lower := lo, upper := hi } : VarState).bounds else (W.vars.map VarState.bounds)[w]? := by
    intro w
    split_ifs with hw
    · subst hw; simp
    · rw [List.map_append, List.getElem?_append]
      split_ifs with h1
      · rfl
      · rw [List.length_map] at h1
        rw [List.getElem?_eq_none (by simp; omega), List.getElem?_eq_none (by simp; omega)]
  have hd : ∀ (l : List Int) w, l.length = W.vars.length → (l ++ [(0 : Int)]).getD w 0 = l.getD w 0 := by
    intro l w hl
    simp only [List.getD_eq_getElem?_getD]
    rw [List.getElem?_append]
    split_ifs with h1
    · rfl
    · rw [List.getElem?_eq_none (l := l) (by omega)]
      cases hk : w - l.length with
      | zero => rfl
      | succ k => simp
  have hw : ∀ w, (W.book.watches ++ [[]]).getD w [] = W.book.watches.getD w [] := by
    intro w
    simp only [List.getD_eq_getElem?_getD]
    rw [List.getElem?_append]
    split_ifs with h1
    · rfl
    · rw [List.getElem?_eq_none (l := W.book.watches) (by omega)]
      cases hk : w - W.book.watches.length with
      | zero => rfl
      | succ k => simp
  have lW := h.lenW
  have lL := h.lenL
  have lU := h.lenU
  rw [hlen] at lW lL lU
  simp only [frame] at lW lL lU
  have hlo : ∀ w, w < W.vars.length → (match ((W.vars ++ [({ lower := lo, upper := hi } : VarState)]).map VarState.bounds)[w]? with | some vs => vs.lower | none => 0) = loF (frame W) w := by
    intro w hw; rw [hget, if_neg (by omega)]; rfl
  have hup : ∀ w, w < W.vars.length → (match ((W.vars ++ [({ lower := lo, upper := hi } : VarState)]).map VarState.bounds)[w]? with | some vs => vs.upper | none => 0) = upF (frame W) w := by
    intro w hw; rw [hget, if_neg (by omega)]; rfl
  refine ⟨⟨h.lev, ?_, ?_, ?_, h.ul, h.uu, ?_, ?_, ?_, ?_, ?_, ?_, h.ndL, h.ndU, h.inac, ?_, ?_, ?_, h.rngI, h.rngT⟩, rfl, fun w hw => ⟨hlo w hw, hup w hw⟩, rfl, rfl⟩
  · simp [frame, lW]
  · simp [frame, lL]
  · simp [frame, lU]
  · intro w
    unfold lstF frame; simp only
    rw [hget]
    split_ifs with hww
    · rfl
    · exact h.stL w
  · intro w
    unfold ustF frame; simp only
    rw [hget]
    split_ifs with hww
    · rfl
    · exact h.stU w
  · intro w; unfold ldF frame; simp only; rw [hd _ _ lL]; exact h.nnL w
  · intro w; unfold udF frame; simp only; rw [hd _ _ lU]; exact h.nnU w
  · intro w; unfold ldF frame; simp only; rw [hd _ _ lL]; exact h.cL w
  · intro w; unfold udF frame; simp only; rw [hd _ _ lU]; exact h.cU w
  · intro n c hc ha
    obtain ⟨h1, h2⟩ := h.track n c hc ha
    refine ⟨h1.congr (fun w hown => ?_), fun w => ?_⟩
    · have hlt : w < W.vars.length := by
        by_contra hge
        apply hown
        have := (h2 w).1
        have e : wtF (frame W) w = [] := by
          unfold wtF frame; simp only
          rw [List.getD_eq_getElem?_getD, List.getElem?_eq_none (by omega)]; rfl
        rw [e] at this
        exact List.Perm.eq_nil this.symm
      unfold ldF udF
      constructor
      · show _ = (match ((W.vars ++ [({ lower := lo, upper := hi } : VarState)]).map VarState.bounds)[w]? with | some vs => vs.lower | none => 0) - (W.book.ldiff ++ [0]).getD w 0
        rw [hlo w hlt, hd _ _ lL]; rfl
      · show _ = (match ((W.vars ++ [({ lower := lo, upper := hi } : VarState)]).map VarState.bounds)[w]? with | some vs => vs.upper | none => 0) - (W.book.udiff ++ [0]).getD w 0
        rw [hup w hlt, hd _ _ lU]; rfl
    · obtain ⟨h3, h4⟩ := h2 w
      refine ⟨?_, h4⟩
      unfold wtF frame; simp only; rw [hw]; exact h3
  · intro w x hx
    unfold wtF frame at hx; simp only at hx; rw [hw] at hx
    exact h.rngW w x hx
  · intro r hr
    obtain ⟨h1, h2⟩ := h.rngR r hr
    refine ⟨?_, h2⟩
    simp only [frame, List.length_map, List.length_append, List.length_singleton]
    rw [hlen] at h1; omega

/-! ### Constraints -/

theorem distinctInit_eff {aL aU : Nat → Int} {all : List (List (Int × Nat) × Int)} : ∀ {es pre : List (List (Int × Nat) × Int)} {c c' : CState} {W W' : World},
    distinctInit pre.length es c W = .ok (c', W') → all = pre ++ es → aL = loF (frame W) → aU = upF (frame W) →
    c.assigned = pre.map (fun e => (lowSum aL aU e.1 + e.2, upSum aL aU e.1 + e.2)) →
    (∀ b j, (b, j) ∈ c.lowerSet ↔ ∃ q, c.assigned[j]? = some q ∧ q.1 = b) → (∀ b j, (b, j) ∈ c.upperSet ↔ ∃ q, c.assigned[j]? = some q ∧ q.2 = b) →
    c.lowerSet.Nodup → c.upperSet.Nodup →
    W' = W ∧ c'.con = c.con ∧ c'.alive = c.alive ∧ c'.inactive = c.inactive ∧ c'.dirty = c.dirty ∧ c'.inDirty = c.inDirty ∧ c'.todo = c.todo ∧
    c'.assigned = all.map (fun e => (lowSum aL aU e.1 + e.2, upSum aL aU e.1 + e.2)) ∧
    (∀ b j, (b, j) ∈ c'.lowerSet ↔ ∃ q, c'.assigned[j]? = some q ∧ q.1 = b) ∧ (∀ b j, (b, j) ∈ c'.upperSet ↔ ∃ q, c'.assigned[j]? = some q ∧ q.2 = b) ∧
    c'.lowerSet.Nodup ∧ c'.upperSet.Nodup
  | [], pre, c, c', W, W', h, hall, hL, hU, ha, hl, hu, nl, nu => by
    obtain ⟨rfl, rfl⟩ := pure_iff.mp h
    rw [List.append_nil] at hall
    subst hall
    exact ⟨rfl, rfl, rfl, rfl, rfl, rfl, rfl, ha, hl, hu, nl, nu⟩
  | (e, f) :: es, pre, c, c', W, W', h, hall, hL, hU, ha, hl, hu, nl, nu => by
    unfold distinctInit at h
    obtain ⟨p, W1, h1, h2⟩ := SM.bind_ok h
    obtain ⟨rfl, rfl⟩ := sumBounds_eff h1
    rw [← hL, ← hU] at h2
    have hlen : c.assigned.length = pre.length := by rw [ha]; simp
    have key : ∀ (g : Int × Int → Int) (S : List (Int × Nat)) (q0 : Int × Int), S.Nodup → (∀ b j, (b, j) ∈ S ↔ ∃ q, c.assigned[j]? = some q ∧ g q = b) →
        (setInsert (g q0, pre.length) S).Nodup ∧ ∀ b j, (b, j) ∈ setInsert (g q0, pre.length) S ↔ ∃ q, (c.assigned ++ [q0])[j]? = some q ∧ g q = b := by
      intro g S q0 hn hm
      constructor
      · refine setInsert_nodup hn ?_
        rw [hm]
        rintro ⟨q, h3, -⟩
        rw [List.getElem?_eq_none (by omega)] at h3; cases h3
      · intro b j
        rw [setInsert_mem, hm]
        by_cases hj : j = pre.length
        · subst hj
          rw [List.getElem?_append_right (by omega), List.getElem?_eq_none (l := c.assigned) (by omega), hlen, Nat.sub_self]
          simp only [List.getElem?_cons_zero]
          constructor
          · rintro (h | ⟨q, h3, -⟩)
            · exact ⟨q0, rfl, (congrArg Prod.fst h).symm⟩
            · cases h3
          · rintro ⟨q, h3, h4⟩
            injection h3 with h3; subst h3
            left; rw [h4]
        · have e : (c.assigned ++ [q0])[j]? = c.assigned[j]? := by
            rw [List.getElem?_append]
            split_ifs with h5
            · rfl
            · rw [List.getElem?_eq_none (l := c.assigned) (by omega), List.getElem?_eq_none (by simp; omega)]
          rw [e]
          constructor
          · rintro (h | h)
            · exact absurd (congrArg Prod.snd h) hj
            · exact h
          · exact Or.inr
    obtain ⟨k1, k2⟩ := key Prod.fst c.lowerSet (lowSum aL aU e + f, upSum aL aU e + f) nl hl
    obtain ⟨k3, k4⟩ := key Prod.snd c.upperSet (lowSum aL aU e + f, upSum aL aU e + f) nu hu
    rw [show pre.length + 1 = (pre ++ [(e, f)]).length by rw [List.length_append]; rfl] at h2
    have key2 := distinctInit_eff (all := all) h2 (by rw [hall]; simp) hL hU (by simp only; rw [ha]; simp) k2 k4 k1 k3
    exact key2

theorem distinctInit_marks : ∀ {es : List (List (Int × Nat) × Int)} {k : Nat} {c c' : CState} {W W' : World}, distinctInit k es c W = .ok (c', W') → MarkOK c → MarkOK c'
  | [], k, c, c', W, W', h, hm => by
    obtain ⟨rfl, -⟩ := pure_iff.mp h
    exact hm
  | (e, f) :: es, k, c, c', W, W', h, hm => by
    unfold distinctInit at h
    obtain ⟨p, W1, -, h2⟩ := SM.bind_ok h
    exact distinctInit_marks h2 hm

theorem initState_eff {c : Constr} {st : CState} (h : initState c W = .ok (st, W')) : W' = W ∧ st.con = c ∧ st.alive = true ∧ st.inactive = 0 ∧ st.todo = false ∧
    Counted st (loF (frame W)) (upF (frame W)) := by
  cases c with
  | sum l r es =>
    obtain ⟨p, W1, h1, h2⟩ := SM.bind_ok h
    obtain ⟨rfl, rfl⟩ := sumBounds_eff h1
    obtain ⟨rfl, rfl⟩ := pure_iff.mp h2
    refine ⟨rfl, rfl, rfl, rfl, rfl, ?_⟩
    unfold Counted Mid; simp [signSum]
  | minimize a es =>
    obtain ⟨p, W1, h1, h2⟩ := SM.bind_ok h
    obtain ⟨rfl, rfl⟩ := sumBounds_eff h1
    obtain ⟨rfl, rfl⟩ := pure_iff.mp h2
    refine ⟨rfl, rfl, rfl, rfl, rfl, ?_⟩
    unfold Counted Mid; simp [signSum]
  | disjoint l es =>
    obtain ⟨rfl, rfl⟩ := pure_iff.mp h
    exact ⟨rfl, rfl, rfl, rfl, rfl, by show ((es.map _).map ivKey).Perm es; rw [List.map_map]; exact List.Perm.of_eq (List.map_id es)⟩
  | nonlinear l ca x y cb z r =>
    obtain ⟨rfl, rfl⟩ := pure_iff.mp h
    exact ⟨rfl, rfl, rfl, rfl, rfl, trivial⟩
  | distinct l es =>
    unfold initState at h
    obtain ⟨h1, h2, h3, h4, h5, h6, h7, h8, h9, h10, h11, h12⟩ := distinctInit_eff (pre := []) (all := es) h rfl rfl rfl rfl (by simp) (by simp)
      List.nodup_nil List.nodup_nil
    refine ⟨h1, h2, h3, h4, h7, ?_⟩
    unfold Counted Mid
    rw [h2]
    have none : ∀ {m i : Nat}, (List.replicate m false).getD i false ≠ true := by
      intro m i hi
      simp only [List.getD_eq_getElem?_getD, List.getElem?_replicate] at hi
      split at hi <;> cases hi
    refine ⟨⟨?_, h9, h10, h11, h12, distinctInit_marks h ⟨fun i hi => absurd hi none, fun i hi => absurd hi none⟩⟩, ?_, ?_, ?_⟩
    · intro i hi
      rw [h6] at hi
      simp only [List.getD_eq_getElem?_getD, List.getElem?_replicate] at hi
      split at hi <;> cases hi
    · intro i hi; cases hi
    · rw [h8]; simp
    · intro idx e he _
      rw [h8, List.getElem?_map, he]; rfl

theorem addVarWatches_eff {n : Nat} : ∀ {ws : List (Int × Nat)} {W W' : World} {u : Unit}, addVarWatches n ws W = .ok (u, W') →
    W' = { W with book.watches := W'.book.watches } ∧ W'.book.watches.length = W.book.watches.length ∧ (∀ w ∈ ws, w.2 < W.book.watches.length) ∧
    ∀ v, W'.book.watches.getD v [] = W.book.watches.getD v [] ++ (ws.filter (fun w => w.2 == v)).map (fun w => (w.1, n))
  | [], W, W', u, h => by
    obtain ⟨-, rfl⟩ := pure_iff.mp h
    exact ⟨rfl, rfl, by simp, by simp⟩
  | (i, x) :: ws, W, W', u, h => by
    unfold addVarWatches at h
    obtain ⟨_, W1, h1, h2⟩ := SM.bind_ok h
    unfold addVarWatch at h1
    simp only [smok] at h1
    obtain ⟨W2, W3, ⟨rfl, rfl⟩, _, W4, ⟨hlt, rfl⟩, rfl⟩ := h1
    obtain ⟨j1, j2, j3, j4⟩ := addVarWatches_eff h2
    have hlt : x < W4.book.watches.length := by simpa using hlt
    refine ⟨?_, ?_, ?_, ?_⟩
    · rw [j1]
    · rw [j2]; simp
    · intro w hw
      rcases List.mem_cons.mp hw with rfl | hw
      · exact hlt
      · have := j3 w hw; simpa using this
    · intro v
      rw [j4]
      simp only [List.getD_eq_getElem?_getD]
      rw [List.getElem?_modify]
      by_cases hv : x = v
      · subst hv
        rw [List.filter_cons_of_pos (by simp), List.getElem?_eq_getElem hlt]
        simp
      · rw [List.filter_cons_of_neg (by simpa using hv)]
        cases hw : W4.book.watches[v]? <;> simp [hv]

theorem BI.toB0 (h : BI F) (hl : F.2.levels = [baseLvl]) : B0 F := h.base hl

/-- Adding a constraint when there are no pending changes of bounds. -/
theorem B0.addConstraint (h : B0 (frame W)) (hq : Still (frame W)) {c : Constr} {n : Nat} (hx : addConstraint c W = .ok (n, W')) :
    B0 (frame W') ∧ Still (frame W') ∧ W'.vars = W.vars ∧ n = W.book.cs.length := by
  unfold Clingcon.addConstraint at hx
  obtain ⟨st, W1, h1, h2⟩ := SM.bind_ok hx
  obtain ⟨rfl, s1, s2, s3, s4, s5⟩ := initState_eff h1
  simp only [smok] at h2
  obtain ⟨W2, W3, ⟨rfl, rfl⟩, _, W4, rfl, _, W5, h5, _, W6, rfl, rfl, rfl⟩ := h2
  obtain ⟨e1, e2, e3, e4⟩ := addVarWatches_eff h5
  have hl : ∀ v, ldF (frame W3) v = 0 := fun v => by
    by_contra hne
    have := (h.cL v).mpr hne
    rw [hq.low] at this; cases this
  have hu : ∀ v, udF (frame W3) v = 0 := fun v => by
    by_contra hne
    have := (h.cU v).mpr hne
    rw [hq.upp] at this; cases this
  have hB : B0 (frame W5) := by
    have ef : frame W5 = ((frame W3).1, { W3.book with cs := W3.book.cs ++ [st], watches := W5.book.watches }) := by
      rw [e1]; rfl
    have hcs : ∀ {m : Nat} {x : CState}, (W3.book.cs ++ [st])[m]? = some x → (W3.book.cs[m]? = some x) ∨ (m = W3.book.cs.length ∧ x = st) := by
      intro m x hm
      rw [List.getElem?_append] at hm
      split_ifs at hm with hlt
      · exact Or.inl hm
      · right
        cases hk : m - W3.book.cs.length with
        | zero => rw [hk] at hm; injection hm with hm; exact ⟨by omega, hm.symm⟩
        | succ k => rw [hk] at hm; simp at hm
    rw [ef]
    refine ⟨h.lev, ?_, h.lenL, h.lenU, h.ul, h.uu, h.stL, h.stU, h.nnL, h.nnU, h.cL, h.cU, h.ndL, h.ndU, ?_, ?_, ?_, ?_, ?_, ?_⟩
    · show W5.book.watches.length = _
      rw [e2]; exact h.lenW
    · intro m x hm h0
      rcases hcs hm with hm | ⟨-, rfl⟩
      · exact h.inac m x hm h0
      · omega
    · intro m x hm ha
      rcases hcs hm with hm | ⟨rfl, rfl⟩
      · obtain ⟨t1, t2⟩ := h.track m x hm ha
        have hlt := (List.getElem?_eq_some_iff.mp hm).1
        refine ⟨t1, fun v => ⟨?_, (t2 v).2⟩⟩
        have : wtF ((frame W3).1, { W3.book with cs := W3.book.cs ++ [st], watches := W5.book.watches }) v = wtF (frame W3) v ++ (c.watches.filter (fun w => w.2 == v)).map (fun w => (w.1, W3.book.cs.length)) := e4 v
        rw [this, List.filter_append]
        have e0 : ((c.watches.filter (fun w => w.2 == v)).map (fun w => (w.1, W3.book.cs.length))).filter (fun w => w.2 == m) = [] := by
          rw [List.filter_eq_nil_iff]
          intro w hw
          obtain ⟨w', -, rfl⟩ := List.mem_map.mp hw
          have hlt : m < W3.book.cs.length := hlt
          simp; omega
        rw [e0, List.append_nil]; exact (t2 v).1
      · refine ⟨?_, fun v => ⟨?_, ?_⟩⟩
        · refine s5.congr (fun v _ => ?_)
          have z1 := hl v
          have z2 := hu v
          constructor
          · show _ = loF (frame W3) v - ldF (frame W3) v; omega
          · show _ = upF (frame W3) v - udF (frame W3) v; omega
        · have : wtF ((frame W3).1, { W3.book with cs := W3.book.cs ++ [x], watches := W5.book.watches }) v = wtF (frame W3) v ++ (c.watches.filter (fun w => w.2 == v)).map (fun w => (w.1, W3.book.cs.length)) := e4 v
          rw [this, List.filter_append]
          have e0 : (wtF (frame W3) v).filter (fun w => w.2 == W3.book.cs.length) = [] := by
            rw [List.filter_eq_nil_iff]
            intro w hw
            have : w.2 < W3.book.cs.length := h.rngW v w hw
            simp; omega
          have e0' : ((c.watches.filter (fun w => w.2 == v)).map (fun w => (w.1, W3.book.cs.length))).filter (fun w => w.2 == W3.book.cs.length) =
              (c.watches.filter (fun w => w.2 == v)).map (fun w => (w.1, W3.book.cs.length)) := by
            rw [List.filter_eq_self]
            intro w hw
            obtain ⟨w', -, rfl⟩ := List.mem_map.mp hw
            simp
          rw [e0, e0', List.nil_append, List.map_map]
          unfold own; rw [s1]
          exact List.Perm.refl _
        · rw [List.filter_eq_nil_iff]
          intro r hr
          have : r.2.2 < W3.book.cs.length := (h.rngR r hr).2
          simp; omega
    · intro v w hw
      show w.2 < (W3.book.cs ++ [st]).length
      have : wtF ((frame W3).1, { W3.book with cs := W3.book.cs ++ [st], watches := W5.book.watches }) v = wtF (frame W3) v ++ (c.watches.filter (fun w => w.2 == v)).map (fun w => (w.1, W3.book.cs.length)) := e4 v
      rw [this] at hw
      rw [List.length_append, List.length_singleton]
      rcases List.mem_append.mp hw with hw | hw
      · have : w.2 < W3.book.cs.length := h.rngW v w hw
        omega
      · obtain ⟨w', -, rfl⟩ := List.mem_map.mp hw; simp
    · intro r hr
      obtain ⟨r1, r2⟩ := h.rngR r hr
      refine ⟨r1, ?_⟩
      show _ < (W3.book.cs ++ [st]).length
      rw [List.length_append, List.length_singleton]
      have : r.2.2 < W3.book.cs.length := r2
      omega
    · intro m hm
      show _ < (W3.book.cs ++ [st]).length
      rw [List.length_append, List.length_singleton]
      have : m < W3.book.cs.length := h.rngI m hm
      omega
    · intro m hm
      show _ < (W3.book.cs ++ [st]).length
      rw [List.length_append, List.length_singleton]
      have : m < W3.book.cs.length := h.rngT m hm
      omega
  have hm := markTodo_eff W5.book W3.book.cs.length
  have hq5 : W5.book.inLdiff = [] ∧ W5.book.inUdiff = [] := by rw [e1]; exact ⟨hq.low, hq.upp⟩
  refine ⟨?_, ?_, ?_, rfl⟩
  · have := hB.bi.mark (vs := (frame W5).1) (b := W5.book) hm
    refine this.base ?_
    show (W5.book.markTodo _).levels = _
    rw [hm.rest]; exact hB.lev
  · constructor
    · show (W5.book.markTodo _).inLdiff = _
      rw [hm.rest]; exact hq5.1
    · show (W5.book.markTodo _).inUdiff = _
      rw [hm.rest]; exact hq5.2
  · show W5.vars = _
    rw [e1]

/-- Removing constraints on the top level. -/
theorem B0.shrink (h : B0 F) {cs' : List CState} {ws' : List (List (Int × Nat))} {td ia : List Nat}
    (hcs : ∀ (m : Nat) x', cs'[m]? = some x' → ∃ x, F.2.cs[m]? = some x ∧
      (x'.alive = true → x.alive = true ∧ SameC x x' ∧ ∀ v, (ws'.getD v []).filter (fun w => w.2 == m) = (wtF F v).filter (fun w => w.2 == m)) ∧
      (0 < x'.inactive → x'.inactive = x.inactive ∧ (m ∈ F.2.inactive → m ∈ ia)))
    (hlen : cs'.length = F.2.cs.length) (hwl : ws'.length = F.2.watches.length) (hws : ∀ v, ∀ w ∈ ws'.getD v [], w ∈ wtF F v)
    (htd : ∀ n ∈ td, n ∈ F.2.todo) (hia : ∀ n ∈ ia, n ∈ F.2.inactive) :
    B0 (F.1, { F.2 with cs := cs', watches := ws', todo := td, inactive := ia }) := by
  refine ⟨h.lev, ?_, h.lenL, h.lenU, h.ul, h.uu, h.stL, h.stU, h.nnL, h.nnU, h.cL, h.cU, h.ndL, h.ndU, ?_, ?_, ?_, ?_, ?_, ?_⟩
  · show ws'.length = _
    rw [hwl]; exact h.lenW
  · intro n c hc h0
    obtain ⟨x, h1, -, h2⟩ := hcs n c hc
    obtain ⟨h3, h4⟩ := h2 h0
    obtain ⟨h5, h6⟩ := h.inac n x h1 (h3 ▸ h0)
    exact ⟨h4 h5, h3.trans h6⟩
  · intro n c hc ha
    obtain ⟨x, h1, h2, -⟩ := hcs n c hc
    obtain ⟨h3, h4, h5⟩ := h2 ha
    obtain ⟨t1, t2⟩ := h.track n x h1 h3
    refine ⟨t1.same h4, fun v => ?_⟩
    have e : own c v = own x v := by unfold own; rw [h4.con]
    have e2 : wtF (F.1, { F.2 with cs := cs', watches := ws', todo := td, inactive := ia }) v = ws'.getD v [] := rfl
    rw [e, e2, h5 v]
    exact t2 v
  · intro v w hw
    show _ < cs'.length
    rw [hlen]; exact h.rngW v w (hws v w hw)
  · intro r hr
    obtain ⟨r1, r2⟩ := h.rngR r hr
    exact ⟨r1, by show _ < cs'.length; rw [hlen]; exact r2⟩
  · intro n hn
    show _ < cs'.length
    rw [hlen]; exact h.rngI n (hia n hn)
  · intro n hn
    show _ < cs'.length
    rw [hlen]; exact h.rngT n (htd n hn)

theorem erase_filter_ne {a : Int × Nat} {p : Int × Nat → Bool} (h : ¬ p a = true) : ∀ l : List (Int × Nat), (l.erase a).filter p = l.filter p
  | [] => rfl
  | b :: l => by
    rw [List.erase_cons]
    by_cases hb : (b == a) = true
    · rw [if_pos hb]
      have : b = a := by simpa using hb
      subst this
      rw [List.filter_cons_of_neg h]
    · rw [if_neg hb]
      by_cases hp : p b = true
      · rw [List.filter_cons_of_pos hp, List.filter_cons_of_pos hp, erase_filter_ne h l]
      · rw [List.filter_cons_of_neg hp, List.filter_cons_of_neg hp, erase_filter_ne h l]

theorem removeVarWatches_eff {n : Nat} : ∀ {ws : List (Int × Nat)} {W W' : World} {u : Unit}, removeVarWatches n ws W = .ok (u, W') →
    W' = { W with book.watches := W'.book.watches } ∧ W'.book.watches.length = W.book.watches.length ∧
    (∀ v, ∀ w ∈ W'.book.watches.getD v [], w ∈ W.book.watches.getD v []) ∧
    ∀ v m, m ≠ n → (W'.book.watches.getD v []).filter (fun w => w.2 == m) = (W.book.watches.getD v []).filter (fun w => w.2 == m)
  | [], W, W', u, h => by
    obtain ⟨-, rfl⟩ := pure_iff.mp h
    exact ⟨rfl, rfl, fun _ _ h => h, fun _ _ _ => rfl⟩
  | (i, x) :: ws, W, W', u, h => by
    unfold removeVarWatches at h
    obtain ⟨_, W1, h1, h2⟩ := SM.bind_ok h
    unfold removeVarWatch at h1
    simp only [smok] at h1
    obtain ⟨W2, W3, ⟨rfl, rfl⟩, _, W4, ⟨hlt, rfl⟩, _, W5, ⟨hc, rfl⟩, rfl⟩ := h1
    obtain ⟨j1, j2, j3, j4⟩ := removeVarWatches_eff h2
    have key : ∀ v, (W5.book.watches.modify x (fun l => l.erase (i, n))).getD v [] = if x = v then (W5.book.watches.getD v []).erase (i, n) else W5.book.watches.getD v [] := by
      intro v
      simp only [List.getD_eq_getElem?_getD]
      rw [List.getElem?_modify]
      by_cases hv : x = v
      · subst hv
        cases hw : W5.book.watches[x]? <;> simp
      · cases hw : W5.book.watches[v]? <;> simp [hv]
    refine ⟨?_, ?_, ?_, ?_⟩
    · rw [j1]
    · rw [j2]; simp
    · intro v w hw
      have := j3 v w hw
      simp only at this
      rw [key] at this
      split_ifs at this with hv
      · exact List.mem_of_mem_erase this
      · exact this
    · intro v m hm
      rw [j4 v m hm]
      simp only
      rw [key]
      split_ifs with hv
      · exact erase_filter_ne (by simpa using fun h => hm h.symm) _
      · rfl

theorem B0.removeConstraint (h : B0 (frame W)) {n : Nat} {u : Unit} (hx : removeConstraint n W = .ok (u, W')) :
    B0 (frame W') ∧ W'.vars = W.vars ∧ W'.book.inLdiff = W.book.inLdiff ∧ W'.book.inUdiff = W.book.inUdiff := by
  unfold Clingcon.removeConstraint at hx
  obtain ⟨W1, W2, h1, h2⟩ := SM.bind_ok hx
  obtain ⟨e0, e0'⟩ := get_iff.mp h1
  rw [e0, e0'] at h2
  cases hc : W.book.cs[n]? with
  | none => rw [hc] at h2; cases h2
  | some c =>
    rw [hc] at h2
    obtain ⟨_, W3, h3, h4⟩ := SM.bind_ok h2
    obtain ⟨l, W4, h5, h6⟩ := SM.bind_ok h4
    simp only [smok] at h5 h6
    obtain ⟨ls, hls, rfl⟩ := h5
    obtain ⟨_, W5, ⟨hl, rfl⟩, rfl⟩ := h6
    obtain ⟨e1, e2, e3, e4⟩ := removeVarWatches_eff h3
    have hcs : W5.book.cs = W.book.cs := by rw [e1]
    have ef : frame { W5 with book := W5.book.removeMarks n } = ((frame W).1, { (frame W).2 with
        cs := W.book.cs.set n { c with alive := false, inactive := 0, todo := false }, watches := W5.book.watches,
        todo := if c.todo then W.book.todo.erase n else W.book.todo,
        inactive := if c.markedInactive then W.book.inactive.erase n else W.book.inactive }) := by
      unfold Book.removeMarks
      rw [hcs, hc]
      simp only
      rw [e1]; rfl
    refine ⟨?_, ?_, ?_, ?_⟩
    · rw [ef]
      refine h.shrink ?_ ?_ e2 e3 ?_ ?_
      · intro m x' hm
        by_cases hne : m = n
        · subst hne
          rw [List.getElem?_set_self (List.getElem?_eq_some_iff.mp hc).1] at hm
          injection hm with hm; subst hm
          exact ⟨c, hc, fun h => by simp at h, fun h => by simp at h⟩
        · rw [List.getElem?_set_ne (fun e => hne e.symm)] at hm
          refine ⟨x', hm, fun ha => ⟨ha, SameC.refl _, fun v => e4 v m hne⟩, fun _ => ⟨rfl, fun hi => ?_⟩⟩
          split_ifs
          · exact (List.mem_erase_of_ne hne).mpr hi
          · exact hi
      · rw [List.length_set]; rfl
      · intro m hm
        split_ifs at hm
        · exact List.mem_of_mem_erase hm
        · exact hm
      · intro m hm
        split_ifs at hm
        · exact List.mem_of_mem_erase hm
        · exact hm
    · show W5.vars = _; rw [e1]
    · exact congrArg (fun F => F.2.inLdiff) ef
    · exact congrArg (fun F => F.2.inUdiff) ef

theorem B0.removeConstraints (h : B0 F) {rem : Nat → Bool} : B0 (F.1, F.2.removeConstraints rem) := by
  refine h.shrink ?_ ?_ ?_ ?_ ?_ ?_
  · intro m x' hm
    have hact : ∀ m, (Book.activate F.2.cs F.2.inactive)[m]? = F.2.cs[m]?.map (fun c => if m ∈ F.2.inactive then { c with inactive := 0 } else c) := by
      intro m
      unfold Book.activate
      exact foldl_modify (f := fun c => { c with inactive := 0 }) (fun _ => rfl)
    rw [List.getElem?_map, List.getElem?_zipIdx] at hm
    rw [unmarkTodo_get, hact] at hm
    cases hx : F.2.cs[m]? with
    | none => rw [hx] at hm; simp at hm
    | some x =>
      rw [hx] at hm
      simp only [Option.map_some, Option.some.injEq] at hm
      subst hm
      refine ⟨x, rfl, ?_, ?_⟩
      · intro ha
        have hr : rem (0 + m) = false := by
          cases hr : rem (0 + m) with
          | false => rfl
          | true => rw [hr] at ha; simp at ha
        rw [Nat.zero_add] at hr ha ⊢
        rw [hr] at ha ⊢
        refine ⟨?_, ?_, ?_⟩
        · simp only [Bool.false_eq_true, if_false] at ha
          split_ifs at ha <;> exact ha
        · simp only [Bool.false_eq_true, if_false]
          split_ifs <;> exact ⟨rfl, rfl, rfl, rfl, rfl, rfl, rfl, rfl, .refl _, id⟩
        · intro v
          have : (F.2.watches.map (fun ws => ws.filter (fun w => !rem w.2))).getD v [] = (wtF F v).filter (fun w => !rem w.2) := by
            show _ = (F.2.watches.getD v []).filter _
            simp only [List.getD_eq_getElem?_getD, List.getElem?_map]
            cases F.2.watches[v]? <;> simp
          rw [this, List.filter_filter]
          refine List.filter_congr (fun w _ => ?_)
          by_cases hw : w.2 = m
          · simp [hw, hr]
          · simp [hw]
      · intro h0
        exfalso
        by_cases hi : m ∈ F.2.inactive
        · revert h0
          simp only [hi, if_true]
          split_ifs <;> simp
        · have : 0 < x.inactive := by
            revert h0
            simp only [hi, if_false]
            split_ifs <;> simp
          exact hi (h.inac m x hx this).1
  · rw [List.length_map, List.length_zipIdx]
    unfold Book.unmarkTodo Book.activate
    rw [foldl_modify_len, foldl_modify_len]
  · simp
  · intro v w hw
    have : (F.2.watches.map (fun ws => ws.filter (fun w => !rem w.2))).getD v [] = (wtF F v).filter (fun w => !rem w.2) := by
      show _ = (F.2.watches.getD v []).filter _
      simp only [List.getD_eq_getElem?_getD, List.getElem?_map]
      cases F.2.watches[v]? <;> simp
    rw [this] at hw
    exact (List.mem_filter.mp hw).1
  · intro n hn; exact (List.mem_filter.mp hn).1
  · intro n hn; exact (List.mem_filter.mp hn).1

end Clingcon
