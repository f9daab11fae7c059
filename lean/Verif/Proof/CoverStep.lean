import Verif.Proof.CoverRun

/-! Violated linear constraints are not missed: the remaining calls. -/
set_option linter.unusedSimpArgs false
set_option linter.unusedVariables false
namespace Clingcon
open Spec VarState

variable {α γ : Type} {W W' : World} {cc : CC} {n : Nat} {F F' : List VarState × Book} {f : Bool} {g : Int → Prop} {T : List Nat}
variable {G : Ghost} {r : Bool} {gs : List (Int → Prop)}

/-- On the top level there is nothing to keep about other levels. -/
theorem Snaps.top (h : WI W) (hl : W.book.levels.length = 1) {k : List (Int → Prop)} : Snaps (frame W) W.book.levels k → Snaps F' W.book.levels k := by
  rw [h.levels hl]
  match k with
  | [_] => exact fun _ => trivial
  | [] => exact fun h => h
  | _ :: _ :: _ => exact fun h => h

/-- Calls on the top level. -/
theorem CI.top {op : Op} (h : CI W G) (hp : op.pre W) (hx : op.exec W = .ok (r, W')) (hlen : W.book.levels.length = 1) (hn : W'.book.levels.length = 1)
    (hl : Learns op W W' r G.known gs) (hm : Marks W'.book.todo (frame W')) (hok : G.ok = true) (hfr : freshAfter W G.fresh op = G.fresh)
    (hc : ∀ g, Cov G.fresh g (frame W) → Cov G.fresh g (frame W')) : CI W' ⟨r, freshAfter W G.fresh op, gs⟩ := by
  obtain ⟨e1, -⟩ := levels_of_same hp hx h.wi (hn.trans hlen.symm)
  refine h.stay (step_eff hp hx h.wi).1 e1 hl hm (Snaps.top h.wi hlen) hok ?_
  intro _ g g' _ hg _ _ hcov
  rw [hfr]
  exact (hc g hcov).learn hg

theorem upSum_congr {aL aU bL bU : Nat → Int} {es : List (Int × Nat)} (h : ∀ e ∈ es, aL e.2 = bL e.2 ∧ aU e.2 = bU e.2) : upSum aL aU es = upSum bL bU es := by
  unfold upSum
  exact lowSum_congr (fun e he => ⟨(h e he).2, (h e he).1⟩)

/-- Variables of constraints exist. -/
theorem B0.vars_exist (h : B0 F) {n : Nat} {c : CState} (hc : F.2.cs[n]? = some c) (ha : c.alive = true) : ∀ w ∈ c.con.watches, w.2 < F.1.length := by
  intro w hw
  by_contra hlt
  have hp := ((h.track n c hc ha).2 w.2).1
  have hin : w.1 ∈ own c w.2 := by
    unfold own
    exact List.mem_map.mpr ⟨w, List.mem_filter.mpr ⟨hw, by simp⟩, rfl⟩
  have he : wtF F w.2 = [] := by
    unfold wtF
    rw [List.getD_eq_getElem?_getD, List.getElem?_eq_none (by rw [h.lenW]; omega)]
    rfl
  rw [he] at hp
  have := hp.symm.subset hin
  simp at this

theorem ci_addVar {lo hi : Int} (h : CI W G) (hp : (Op.addVar lo hi).pre W) (hx : (Op.addVar lo hi).exec W = .ok (r, W')) (hok : G.ok = true)
    (hl : Learns (.addVar lo hi) W W' r G.known gs) : CI W' ⟨r, freshAfter W G.fresh (.addVar lo hi), gs⟩ := by
  have hx0 := hx
  obtain ⟨_, W1, h1, h2⟩ := SM.bind_ok hx
  obtain ⟨-, rfl⟩ := pure_iff.mp h2
  obtain ⟨v, h3⟩ := discard_iff.mp h1
  have hB := h.wi.b0 hp.1
  obtain ⟨-, -, hkeep, -, -⟩ := hB.addVar h3
  injection h3 with h3
  obtain ⟨-, e⟩ := Prod.mk.inj h3
  have ecs : W'.book.cs = W.book.cs := by rw [← e]
  have ein : W'.book.inactive = W.book.inactive := by rw [← e]
  have eto : W'.book.todo = W.book.todo := by rw [← e]
  have elv : W'.book.levels = W.book.levels := by rw [← e]
  have emb : W'.book.minimizeBound = W.book.minimizeBound := by rw [← e]
  refine h.top hp hx0 hp.1 (by rw [elv]; exact hp.1) hl ?_ hok rfl ?_
  · refine ⟨fun m c hc => ?_, fun m c hc => ?_⟩
    · have hc : W'.book.cs[m]? = some c := hc
      rw [eto]; rw [ecs] at hc
      exact h.marks.1 m c hc
    · have hc : W'.book.cs[m]? = some c := hc
      show _ → m ∈ W'.book.inactive
      rw [ein]; rw [ecs] at hc
      exact h.marks.2 m c hc
  · intro g hc
    refine ⟨fun m c h1 h2 h3 h4 => ?_, fun m c h1 h2 h3 h4 => ?_⟩
    · have h1 : W'.book.cs[m]? = some c := h1
      have h3 : m ∉ W'.book.todo := h3
      have h4 : m ∉ W'.book.inactive := h4
      rw [ecs] at h1; rw [eto] at h3; rw [ein] at h4
      exact (hc.1 m c h1 h2 h3 h4).congr emb rfl rfl (Int.le_refl _)
    · have h1 : W'.book.cs[m]? = some c := h1
      have h4 : m ∈ W'.book.inactive := h4
      rw [ecs] at h1; rw [ein] at h4
      have := hc.2 m c h1 h2 trivial h4
      have hv := hB.vars_exist h1 h2
      cases hcon : c.con with
      | sum l r es =>
        rw [hcon] at this hv
        rcases this with this | this
        · refine Or.inl ?_
          rw [upSum_congr (bL := loF (frame W)) (bU := upF (frame W)) (fun e he => ?_)]
          · exact this
          · have := hv e he
            exact hkeep e.2 (by simpa [frame] using this)
        · exact Or.inr this
      | minimize a es => rw [hcon] at this; exact this
      | distinct l es => trivial
      | disjoint l es => trivial
      | nonlinear l ca x y cb z r => trivial

theorem ci_addConstraint {con : Constr} (h : CI W G) (hp : (Op.addConstraint con).pre W) (hx : (Op.addConstraint con).exec W = .ok (r, W')) (hok : G.ok = true)
    (hl : Learns (.addConstraint con) W W' r G.known gs) : CI W' ⟨r, freshAfter W G.fresh (.addConstraint con), gs⟩ := by
  have hx0 := hx
  obtain ⟨_, W1, h1, h2⟩ := SM.bind_ok hx
  obtain ⟨-, rfl⟩ := pure_iff.mp h2
  obtain ⟨v, h3⟩ := discard_iff.mp h1
  clear h1 h2 hx
  have hB := h.wi.b0 hp.1
  unfold addConstraint at h3
  obtain ⟨st, W1, h1, h2⟩ := SM.bind_ok h3
  obtain ⟨rfl, i1, hal, iin, htd, -⟩ := initState_eff h1
  obtain ⟨W2, W3, h3', h4⟩ := SM.bind_ok h2
  obtain ⟨rfl, rfl⟩ := get_iff.mp h3'
  dsimp only at h4
  obtain ⟨_, W4, h5, h6⟩ := SM.bind_ok h4
  rw [modify_iff] at h5
  subst h5
  obtain ⟨_, W5, h7, h8⟩ := SM.bind_ok h6
  obtain ⟨e1, e2, -, e4⟩ := addVarWatches_eff h7
  obtain ⟨_, W6, h9, h10⟩ := SM.bind_ok h8
  rw [modify_iff] at h9
  obtain ⟨-, rfl⟩ := pure_iff.mp h10
  subst h9
  have ecs : W5.book.cs = W3.book.cs ++ [st] := by rw [e1]
  have ein : W5.book.inactive = W3.book.inactive := by rw [e1]
  have eto : W5.book.todo = W3.book.todo := by rw [e1]
  have emb : W5.book.minimizeBound = W3.book.minimizeBound := by rw [e1]
  have elv : W5.book.levels = W3.book.levels := by rw [e1]
  have get5 : ∀ (m : Nat) c, W5.book.cs[m]? = some c → W3.book.cs[m]? = some c ∨ (m = W3.book.cs.length ∧ c = st) := by
    intro m c hc
    rw [ecs, List.getElem?_append] at hc
    split_ifs at hc with hlt
    · exact Or.inl hc
    · right
      have : m - W3.book.cs.length = 0 := by
        by_contra hne
        rw [List.getElem?_eq_none (by simp; omega)] at hc
        cases hc
      rw [this] at hc
      simp at hc
      exact ⟨by omega, hc.symm⟩
  have m5 : Marks W5.book.todo (frame W5) := by
    refine ⟨fun m c hc ht => ?_, fun m c hc hi => ?_⟩
    · rw [eto]
      rcases get5 m c hc with hc | ⟨-, rfl⟩
      · exact h.marks.1 m c hc ht
      · rw [htd] at ht; cases ht
    · show m ∈ W5.book.inactive
      rw [ein]
      rcases get5 m c hc with hc | ⟨-, rfl⟩
      · exact h.marks.2 m c hc hi
      · rw [iin] at hi; cases hi
  have hlv : (W5.book.markTodo W3.book.cs.length).levels = W3.book.levels := by rw [(markTodo_eff _ _).rest]; exact elv
  refine h.top hp hx0 hp.1 ?_ hl (markTodo_marks (vs := (frame W5).1) m5) hok rfl ?_
  · exact (congrArg List.length hlv).trans hp.1
  · intro g hc
    refine ⟨markTodo_quiet (vs := (frame W5).1) m5 ?_, ?_⟩
    · intro m c h1 h2 h3 h4
      rcases get5 m c h1 with h1 | ⟨rfl, -⟩
      · have h4 : m ∉ W5.book.inactive := h4
        rw [ein] at h4
        rw [eto] at h3
        exact (hc.1 m c h1 h2 (fun hm => h3 (List.mem_cons_of_mem _ hm)) h4).congr emb rfl rfl (Int.le_refl _)
      · exact absurd (List.mem_cons_self ..) h3
    · refine Out.view (F := frame W5) ?_ rfl markTodo_aview
      intro m c h1 h2 h3 h4
      have h4 : m ∈ W5.book.inactive := h4
      rw [ein] at h4
      rcases get5 m c h1 with h1 | ⟨rfl, -⟩
      · have ev : (frame W5).1 = (frame W3).1 := by unfold frame; rw [e1]
        have e5 : loF (frame W5) = loF (frame W3) := by unfold loF; rw [ev]
        have e6 : upF (frame W5) = upF (frame W3) := by unfold upF; rw [ev]
        rw [e5, e6]
        exact hc.2 m c h1 h2 trivial h4
      · exact absurd (h.wi.bi.rngI _ h4) (Nat.lt_irrefl _)

theorem ci_removeConstraint {k : Nat} (h : CI W G) (hp : (Op.removeConstraint k).pre W) (hx : (Op.removeConstraint k).exec W = .ok (r, W')) (hok : G.ok = true)
    (hl : Learns (.removeConstraint k) W W' r G.known gs) : CI W' ⟨r, freshAfter W G.fresh (.removeConstraint k), gs⟩ := by
  have hx0 := hx
  obtain ⟨_, W1, h1, h2⟩ := SM.bind_ok hx
  obtain ⟨-, rfl⟩ := pure_iff.mp h2
  clear h2 hx
  unfold removeConstraint at h1
  obtain ⟨W2, W3, h3', h4⟩ := SM.bind_ok h1
  obtain ⟨rfl, rfl⟩ := get_iff.mp h3'
  cases hc : W3.book.cs[k]? with
  | none => rw [hc] at h4; cases h4
  | some c =>
  rw [hc] at h4
  obtain ⟨_, W4, h5, h6⟩ := SM.bind_ok h4
  obtain ⟨l, W5, h7, h8⟩ := SM.bind_ok h6
  simp only [smok] at h7 h8
  obtain ⟨ls, hls, rfl⟩ := h7
  obtain ⟨_, W6, ⟨hl0, rfl⟩, rfl⟩ := h8
  obtain ⟨e1, -, -, -⟩ := removeVarWatches_eff h5
  have ecs : W6.book.cs = W3.book.cs := by rw [e1]
  have ein : W6.book.inactive = W3.book.inactive := by rw [e1]
  have eto : W6.book.todo = W3.book.todo := by rw [e1]
  have emb : W6.book.minimizeBound = W3.book.minimizeBound := by rw [e1]
  have elv : W6.book.levels = W3.book.levels := by rw [e1]
  have ev : W6.vars = W3.vars := by rw [e1]
  have hr : W6.book.removeMarks k = { W6.book with
      cs := W3.book.cs.set k { c with alive := false, inactive := 0, todo := false }
      inactive := if c.markedInactive then W3.book.inactive.erase k else W3.book.inactive
      todo := if c.todo then W3.book.todo.erase k else W3.book.todo } := by
    unfold Book.removeMarks
    rw [ecs, hc, ein, eto]
  have get6 : ∀ (m : Nat) c', (W6.book.removeMarks k).cs[m]? = some c' → (m ≠ k ∧ W3.book.cs[m]? = some c') ∨ (m = k ∧ c'.alive = false ∧ c'.inactive = 0 ∧ c'.todo = false) := by
    intro m c' hm
    rw [hr] at hm
    dsimp only at hm
    by_cases e : k = m
    · subst e
      rw [List.getElem?_set_self (List.getElem?_eq_some_iff.mp hc).1] at hm
      injection hm with hm
      subst hm
      exact Or.inr ⟨rfl, rfl, rfl, rfl⟩
    · rw [List.getElem?_set_ne e] at hm
      exact Or.inl ⟨fun h => e h.symm, hm⟩
  have memI : ∀ m, m ≠ k → (m ∈ (W6.book.removeMarks k).inactive ↔ m ∈ W3.book.inactive) := by
    intro m hm
    rw [hr]
    dsimp only
    split_ifs
    · exact List.mem_erase_of_ne hm
    · exact Iff.rfl
  have memT : ∀ m, m ≠ k → (m ∈ (W6.book.removeMarks k).todo ↔ m ∈ W3.book.todo) := by
    intro m hm
    rw [hr]
    dsimp only
    split_ifs
    · exact List.mem_erase_of_ne hm
    · exact Iff.rfl
  have hlv : (W6.book.removeMarks k).levels = W3.book.levels := by rw [hr]; exact elv
  have hmb : (W6.book.removeMarks k).minimizeBound = W3.book.minimizeBound := by rw [hr]; exact emb
  refine h.top hp hx0 hp (by show (W6.book.removeMarks k).levels.length = 1; rw [hlv]; exact hp) hl ?_ hok rfl ?_
  · refine ⟨fun m c' h1 h2 => ?_, fun m c' h1 h2 => ?_⟩
    · rcases get6 m c' h1 with ⟨e, g⟩ | ⟨-, -, -, g⟩
      · exact (memT m e).mpr (h.marks.1 m c' g h2)
      · rw [g] at h2; cases h2
    · rcases get6 m c' h1 with ⟨e, g⟩ | ⟨-, -, g, -⟩
      · exact (memI m e).mpr (h.marks.2 m c' g h2)
      · rw [g] at h2; cases h2
  · intro g hcv
    refine ⟨fun m c' h1 h2 h3 h4 => ?_, fun m c' h1 h2 h3 h4 => ?_⟩
    · rcases get6 m c' h1 with ⟨e, g⟩ | ⟨-, g, -⟩
      · exact (hcv.1 m c' g h2 (fun hm => h3 ((memT m e).mpr hm)) (fun hm => h4 ((memI m e).mpr hm))).congr hmb rfl rfl (Int.le_refl _)
      · rw [g] at h2; cases h2
    · rcases get6 m c' h1 with ⟨e, g⟩ | ⟨-, g, -⟩
      · have e5 : loF (frame { W6 with book := W6.book.removeMarks k }) = loF (frame W3) := by unfold loF frame; rw [ev]
        have e6 : upF (frame { W6 with book := W6.book.removeMarks k }) = upF (frame W3) := by unfold upF frame; rw [ev]
        rw [e5, e6]
        exact hcv.2 m c' g h2 trivial ((memI m e).mp h4)
      · rw [g] at h2; cases h2

theorem removeConstraints_get {b : Book} {rem : Nat → Bool} {m : Nat} {c' : CState} (h : (b.removeConstraints rem).cs[m]? = some c') :
    ∃ c, b.cs[m]? = some c ∧ c'.con = c.con ∧ c'.lower = c.lower ∧ c'.upper = c.upper ∧ (c'.alive = true → c.alive = true ∧ rem m = false) ∧
      (c'.todo = true → c.todo = true ∧ m ∉ b.todo) ∧ (0 < c'.inactive → 0 < c.inactive ∧ m ∉ b.inactive) := by
  unfold Book.removeConstraints at h
  dsimp only at h
  rw [List.getElem?_map, List.getElem?_zipIdx, unmarkTodo_get] at h
  unfold Book.activate at h
  rw [foldl_modify (f := fun c => { c with inactive := 0 }) (fun _ => rfl)] at h
  cases hc : b.cs[m]? with
  | none => rw [hc] at h; cases h
  | some c =>
    rw [hc] at h
    simp only [Option.map_some, Option.some.injEq, Nat.zero_add] at h
    refine ⟨c, rfl, ?_⟩
    subst h
    by_cases h1 : m ∈ b.todo <;> by_cases h2 : m ∈ b.inactive <;> cases h3 : rem m <;> simp [h1, h2]

theorem ci_removeConstraints {rem : Nat → Bool} (h : CI W G) (hp : (Op.removeConstraints rem).pre W) (hx : (Op.removeConstraints rem).exec W = .ok (r, W')) (hok : G.ok = true)
    (hl : Learns (.removeConstraints rem) W W' r G.known gs) : CI W' ⟨r, freshAfter W G.fresh (.removeConstraints rem), gs⟩ := by
  have hx0 := hx
  obtain ⟨_, W1, h1, h2⟩ := SM.bind_ok hx
  obtain ⟨-, rfl⟩ := pure_iff.mp h2
  obtain rfl := modify_iff.mp h1
  refine h.top hp hx0 hp hp hl ?_ hok rfl ?_
  · refine ⟨fun m c' h1 h2 => ?_, fun m c' h1 h2 => ?_⟩
    · obtain ⟨c, a1, -, -, -, -, a2, -⟩ := removeConstraints_get h1
      obtain ⟨a3, a4⟩ := a2 h2
      exact absurd (h.marks.1 m c a1 a3) a4
    · obtain ⟨c, a1, -, -, -, -, -, a2⟩ := removeConstraints_get h1
      obtain ⟨a3, a4⟩ := a2 h2
      exact absurd (h.marks.2 m c a1 a3) a4
  · intro g hcv
    refine ⟨fun m c' h1 h2 h3 h4 => ?_, fun m c' h1 h2 h3 h4 => ?_⟩
    · obtain ⟨c, a1, a2, a3, a4, a5, -, -⟩ := removeConstraints_get h1
      obtain ⟨b1, b2⟩ := a5 h2
      refine (hcv.1 m c a1 b1 (fun hm => h3 ?_) (fun hm => h4 ?_)).congr rfl a2 a3 (by rw [a4])
      · exact List.mem_filter.mpr ⟨hm, by simp [b2]⟩
      · exact List.mem_filter.mpr ⟨hm, by simp [b2]⟩
    · obtain ⟨c, a1, a2, a3, a4, a5, -, -⟩ := removeConstraints_get h1
      obtain ⟨b1, b2⟩ := a5 h2
      rw [a2]
      exact hcv.2 m c a1 b1 trivial (List.mem_filter.mp h4).1

theorem ci_update {k : Nat} (h : CI W G) (hp : (Op.update k).pre W) (hx : (Op.update k).exec W = .ok (r, W')) (hok : G.ok = true)
    (hl : Learns (.update k) W W' r G.known gs) : CI W' ⟨r, freshAfter W G.fresh (.update k), gs⟩ := by
  have hx0 := hx
  obtain ⟨_, W1, h1, h2⟩ := SM.bind_ok hx
  obtain ⟨-, rfl⟩ := pure_iff.mp h2
  unfold solverUpdate at h1
  obtain ⟨_, W2, h3, h4⟩ := SM.bind_ok h1
  obtain rfl := modify_iff.mp h3
  obtain ⟨W3, W4, h5, h6⟩ := SM.bind_ok h4
  obtain ⟨rfl, rfl⟩ := get_iff.mp h5
  have fr := fr_updateStep.fr _ _ _ h6
  have eb : W'.book = { W.book with minimizeBound := none, minimizeLevel := 0 } := congrArg Prod.snd fr
  have ecs : W'.book.cs = W.book.cs := by rw [eb]
  have ein : W'.book.inactive = W.book.inactive := by rw [eb]
  have eto : W'.book.todo = W.book.todo := by rw [eb]
  have elv : W'.book.levels = W.book.levels := by rw [eb]
  have emb : W'.book.minimizeBound = none := by rw [eb]
  have hlo : loF (frame W') = loF (frame W) := by rw [fr]; rfl
  have hup : upF (frame W') = upF (frame W) := by rw [fr]; rfl
  obtain ⟨f1, f2⟩ := levels_of_same hp hx0 h.wi (by rw [elv])
  refine h.stay (step_eff hp hx0 h.wi).1 elv hl ?_ (fun hs => ?_) hok ?_
  · refine ⟨fun m c hc => ?_, fun m c hc => ?_⟩
    · have hc : W'.book.cs[m]? = some c := hc
      rw [eto]; rw [ecs] at hc
      exact h.marks.1 m c hc
    · have hc : W'.book.cs[m]? = some c := hc
      show _ → m ∈ W'.book.inactive
      rw [ein]; rw [ecs] at hc
      exact h.marks.2 m c hc
  · refine Snaps.steady (F := frame W) h.wi.bi f2 (by show W'.book.cs.map acon = _; rw [ecs]; rfl) (by show _ <+: W'.book.inactive; rw [ein]; exact List.prefix_rfl) ?_ hs
    intro v l _ hv
    have hv : W'.book.minimizeBound = some v := hv
    rw [emb] at hv; cases hv
  · intro _ g g' _ hg _ _ hc
    refine Cov.learn hg ⟨fun m c h1 h2 h3 h4 => ?_, fun m c h1 h2 h3 h4 => ?_⟩
    · have h1 : W'.book.cs[m]? = some c := h1
      have h3 : m ∉ W'.book.todo := h3
      have h4 : m ∉ W'.book.inactive := h4
      rw [ecs] at h1; rw [eto] at h3; rw [ein] at h4
      have := hc.1 m c h1 h2 h3 h4
      unfold Low at this ⊢
      cases hcon : c.con with
      | sum l r es => rw [hcon] at this; exact this
      | minimize a es =>
        intro _ v hv
        have hv : W'.book.minimizeBound = some v := hv
        rw [emb] at hv; cases hv
      | distinct l es => trivial
      | disjoint l es => trivial
      | nonlinear l ca x y cb z r => trivial
    · have h1 : W'.book.cs[m]? = some c := h1
      have h4 : m ∈ W'.book.inactive := h4
      rw [ecs] at h1; rw [ein] at h4
      rw [hlo, hup]
      exact hc.2 m c h1 h2 trivial h4

/-- Reports of bounds of the objective. -/
theorem report_cov {n level : Nat} {bound : Int} (h : Marks W.book.todo (frame W)) (hc : Cov f g (frame W)) (hn : newReport W level bound = true)
    (hu : ∀ (m : Nat) c a es, W.book.cs[m]? = some c → c.alive = true → c.con = .minimize a es → m = n) {b : Option Int} {k : Nat} :
    Cov true g ((frame W).1, { W.book with minimizeBound := b, minimizeLevel := k }.markTodo n) := by
  have m1 : Marks { W.book with minimizeBound := b, minimizeLevel := k }.todo ((frame W).1, { W.book with minimizeBound := b, minimizeLevel := k }) := h
  refine ⟨markTodo_quiet m1 ?_, ?_⟩
  · intro m c h1 h2 h3 h4
    have hmn : m ≠ n := fun e => h3 (by rw [e]; exact List.mem_cons_self ..)
    have := hc.1 m c h1 h2 (fun hm => h3 (List.mem_cons_of_mem _ hm)) h4
    unfold Low at this ⊢
    cases hcon : c.con with
    | sum l r es => rw [hcon] at this; exact this
    | minimize a es => exact absurd (hu m c a es h1 h2 hcon) hmn
    | distinct l es => trivial
    | disjoint l es => trivial
    | nonlinear l ca x y cb z r => trivial
  · exact Out.view (F := ((frame W).1, { W.book with minimizeBound := b, minimizeLevel := k })) hc.2 rfl markTodo_aview

theorem ci_updateMinimize {n level : Nat} {bound : Int} (h : CI W G) (hp : (Op.updateMinimize n level bound).pre W) (hx : (Op.updateMinimize n level bound).exec W = .ok (r, W'))
    (hs : searchPre G W (.updateMinimize n level bound)) (hok : G.ok = true)
    (hl : Learns (.updateMinimize n level bound) W W' r G.known gs) : CI W' ⟨r, freshAfter W G.fresh (.updateMinimize n level bound), gs⟩ := by
  have hx0 := hx
  obtain ⟨_, W1, h1, h2⟩ := SM.bind_ok hx
  obtain ⟨-, rfl⟩ := pure_iff.mp h2
  obtain rfl := modify_iff.mp h1
  obtain ⟨-, hlev, hmin, huni⟩ := hs
  have elv := (updateMinimize_eff (n := n) (l := level) (x := bound) h.wi.bi).2
  obtain ⟨f1, f2⟩ := levels_of_same hp hx0 h.wi (congrArg List.length elv)
  have hmax : ∀ l ∈ W.book.levels, l.level ≤ W.level := by
    intro l hl
    have hd := h.wi.bi.dec
    unfold World.level
    cases hh : W.book.levels with
    | nil => rw [hh] at hl; cases hl
    | cons y ys =>
      rw [hh] at hl
      simp only [frame] at hd
      rw [hh, List.map_cons, List.pairwise_cons] at hd
      rcases List.mem_cons.mp hl with rfl | hl
      · exact Nat.le_refl _
      · exact Nat.le_of_lt (hd.1 _ (List.mem_map_of_mem hl))
  have new : ∀ b k, W.book.updateMinimize n level bound = { W.book with minimizeBound := b, minimizeLevel := k }.markTodo n → newReport W level bound = true → level ≤ k →
      CI { W with book := W.book.updateMinimize n level bound } ⟨r, freshAfter W G.fresh (.updateMinimize n level bound), gs⟩ := by
    intro b k he hn hk
    have ha : aview (W.book.updateMinimize n level bound) = aview W.book := by rw [he]; exact markTodo_aview
    have hv : mview (W.book.updateMinimize n level bound) = (b, k) := by rw [he]; exact markTodo_mview
    refine h.stay (step_eff hp hx0 h.wi).1 f1 hl ?_ (fun hs => ?_) hok ?_
    · show Marks (W.book.updateMinimize n level bound).todo ((frame W).1, W.book.updateMinimize n level bound)
      rw [he]
      exact markTodo_marks (b := { W.book with minimizeBound := b, minimizeLevel := k }) h.marks
    · refine Snaps.steady (F := frame W) h.wi.bi f2 (congrArg Prod.fst ha) ?_ ?_ hs
      · have : (W.book.updateMinimize n level bound).inactive = W.book.inactive := congrArg Prod.snd ha
        show W.book.inactive <+: (W.book.updateMinimize n level bound).inactive
        rw [this]
      · intro v l hl _ hlt
        have e2 : (W.book.updateMinimize n level bound).minimizeLevel = k := congrArg Prod.snd hv
        have hlt : (W.book.updateMinimize n level bound).minimizeLevel < l.level := hlt
        have := hmax l hl
        omega
    · intro _ g g' _ hg _ _ hc
      refine Cov.learn hg ?_
      have e : freshAfter W G.fresh (.updateMinimize n level bound) = true := by simp [freshAfter, hn]
      rw [e]
      show Cov true g ((frame W).1, W.book.updateMinimize n level bound)
      rw [he]
      exact report_cov h.marks hc hn huni
  cases hb : (match W.book.minimizeBound with | none => true | some mb => decide (bound < mb))
  · have hb' : ¬ (match W.book.minimizeBound with | none => true | some mb => decide (bound < mb)) = true := by rw [hb]; simp
    by_cases hlt : level < W.book.minimizeLevel
    · refine new W.book.minimizeBound level ?_ ?_ (Nat.le_refl _)
      · exact (if_neg hb').trans (if_pos hlt)
      · show (_ || decide (level < W.book.minimizeLevel)) = true
        rw [decide_eq_true hlt]; simp
    · have he : W.book.updateMinimize n level bound = W.book := (if_neg hb').trans (if_neg hlt)
      have hn : newReport W level bound = false := by
        show ((match W.book.minimizeBound with | none => true | some mb => decide (bound < mb)) || decide (level < W.book.minimizeLevel)) = false
        rw [hb, decide_eq_false hlt]; rfl
      refine h.fr ?_ hl hok ?_
      · show ((frame W).1, W.book.updateMinimize n level bound) = frame W
        rw [he]; rfl
      · show (G.fresh || newReport W level bound) = G.fresh
        rw [hn]; simp
  · refine new (some bound) level ?_ ?_ (Nat.le_refl _)
    · exact if_pos hb
    · show ((match W.book.minimizeBound with | none => true | some mb => decide (bound < mb)) || decide (level < W.book.minimizeLevel)) = true
      rw [hb]; rfl

end Clingcon
