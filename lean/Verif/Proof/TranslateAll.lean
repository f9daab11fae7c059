import Verif.Proof.TranslateKeep

/-! What is preserved when all constraints are translated. -/
set_option linter.unusedSimpArgs false
namespace Clingcon
open Spec VarState

variable {cc : CC} {tc : TConf} {W W' : World} {β : Nat → Bool} {σ : Nat → Int}

/-! ### Growing states -/

/-- Order literals, what was posted and pending facts are kept, and bounds do not change. -/
structure Sub (W W' : World) : Prop where
  vars : ∀ (v : Nat) (vs : VarState), W.vars[v]? = some vs → ∃ vs', W'.vars[v]? = some vs' ∧ vs'.bounds = vs.bounds ∧ ∀ p ∈ vs.with, p ∈ vs'.with
  log : ∃ new, W'.log = new ++ W.log
  facts : ∃ new, W'.factmap = W.factmap ++ new
  next : W.nextLit ≤ W'.nextLit

theorem Sub.refl : Sub W W := ⟨fun _ vs h => ⟨vs, h, rfl, fun _ h => h⟩, ⟨[], rfl⟩, ⟨[], by simp⟩, le_rfl⟩
theorem Sub.trans {W'' : World} (h : Sub W W') (h' : Sub W' W'') : Sub W W'' := by
  obtain ⟨n1, e1⟩ := h.log
  obtain ⟨n2, e2⟩ := h'.log
  obtain ⟨f1, g1⟩ := h.facts
  obtain ⟨f2, g2⟩ := h'.facts
  refine ⟨fun v vs hv => ?_, ⟨n2 ++ n1, by rw [e2, e1, List.append_assoc]⟩, ⟨f1 ++ f2, by rw [g2, g1, List.append_assoc]⟩, h.next.trans h'.next⟩
  obtain ⟨vs1, a1, a2, a3⟩ := h.vars v vs hv
  obtain ⟨vs2, b1, b2, b3⟩ := h'.vars v vs1 a1
  exact ⟨vs2, b1, b2.trans a2, fun p hp => b3 p (a3 p hp)⟩
theorem Sub.len (h : Sub W W') : W.vars.length ≤ W'.vars.length := by
  by_contra hc
  obtain ⟨vs', h1, -⟩ := h.vars W'.vars.length _ (List.getElem?_eq_getElem (by omega))
  have := (List.getElem?_eq_some_iff.mp h1).1
  omega
theorem Sub.same (h1 : W'.vars = W.vars) (h2 : ∃ new, W'.log = new ++ W.log) (h3 : W'.factmap = W.factmap) (h4 : W.nextLit ≤ W'.nextLit) : Sub W W' :=
  ⟨fun v vs hv => ⟨vs, by rw [h1]; exact hv, rfl, fun _ h => h⟩, h2, ⟨[], by rw [h3, List.append_nil]⟩, h4⟩

theorem bounds_set {vs vs' : VarState} (h : vs' = { vs with table := vs'.table }) : vs'.bounds = vs.bounds := by rw [h]; rfl

theorem sub_set {v : Nat} {vs vs' : VarState} (hv : W.vars[v]? = some vs) (h1 : W'.vars = W.vars.set v vs') (hb : vs'.bounds = vs.bounds)
    (hm : ∀ p ∈ vs.with, p ∈ vs'.with) (h2 : ∃ new, W'.log = new ++ W.log) (h3 : W'.factmap = W.factmap) (h4 : W.nextLit ≤ W'.nextLit) : Sub W W' := by
  refine ⟨fun u us hu => ?_, h2, ⟨[], by rw [h3, List.append_nil]⟩, h4⟩
  by_cases huv : u = v
  · subst huv
    rw [hv] at hu
    injection hu with hu
    subst hu
    exact ⟨vs', by rw [h1, List.getElem?_set_self (List.getElem?_eq_some_iff.mp hv).1], hb, hm⟩
  · exact ⟨us, by rw [h1, List.getElem?_set_ne (Ne.symm huv)]; exact hu, rfl, fun _ h => h⟩

theorem GotLit.sub {v : Nat} {k l : Int} (h : GotLit W v k l W') : Sub W W' := by
  cases h with
  | low => exact .refl
  | high => exact .refl
  | old vs vs' l hv h1 h2 hm hs => exact sub_set hv rfl (bounds_set hs.eq) (fun p hp => (hs.mem p.1 p.2).mpr hp) ⟨[], rfl⟩ rfl le_rfl
  | new vs vs' l hv h1 h2 hm hs hl =>
    refine sub_set hv rfl (bounds_set hs.eq) (fun p hp => ?_) ⟨[_, _, _, _], rfl⟩ rfl (by show W.nextLit ≤ W.nextLit + 1; omega)
    refine (hs.mem p.1 p.2).mpr ?_
    rw [if_neg]
    · exact hp
    · intro he
      exact hm p.2 (he ▸ hp)

theorem sub_addVar {a b : Int} {v : Nat} (h : addVar a b W = .ok (v, W')) : Sub W W' := by
  obtain ⟨⟨⟨x, e, p⟩, h2, h3, h4⟩, -, -⟩ := addVar_appended h
  refine ⟨fun v vs hv => ⟨vs, ?_, rfl, fun _ h => h⟩, ⟨[], h2⟩, ⟨[], by rw [h4, List.append_nil]⟩, h3.ge⟩
  rw [e, List.getElem?_append_left (List.getElem?_eq_some_iff.mp hv).1]
  exact hv

theorem sub_book (W0 W : World) (b : Book) (h : TI W ∧ Sub W0 W) : TI { W with book := b } ∧ Sub W0 { W with book := b } :=
  ⟨h.1.other rfl rfl rfl, h.2.trans (Sub.same rfl ⟨[], rfl⟩ rfl le_rfl)⟩

/-- Tables and literals agree, and the state extends the given one. -/
theorem sub_prim (W0 : World) : PrimT cc (fun _ _ => True) (fun W => TI W ∧ Sub W0 W) where
  enable W := sub_book W0 W _
  event W e he h := ⟨h.1.other rfl rfl rfl, h.2.trans (Sub.same rfl ⟨[e], rfl⟩ rfl le_rfl)⟩
  literal v x := ⟨fun W a W' hx h => ⟨(ti_prim.literal cc v x).kw _ _ _ hx h.1, h.2.trans (getLiteral_eff h.1.wf (by have := h.1.pos; omega) hx).sub⟩⟩
  newLit := ⟨fun W a W' hx h => by
    obtain ⟨-, rfl⟩ := newLit_iff.mp hx
    exact ⟨ti_newLit h.1, h.2.trans (Sub.same rfl ⟨[_], rfl⟩ rfl (by show W.nextLit ≤ W.nextLit + 1; omega))⟩⟩
  addVar a b _ := ⟨fun W n W' hx h => ⟨h.1.ti_addVar hx, h.2.trans (sub_addVar hx)⟩⟩

/-- Order literals are for variables and literals that exist. -/
def OrdLog (W : World) : Prop := ∀ l v k, SEv.order l v k ∈ W.log → |l| < W.nextLit ∧ v < W.vars.length

theorem OrdLog.ev {e : SEv} (h : OrdLog W) (he : ∀ l v k, e ≠ .order l v k) (h1 : W'.vars.length = W.vars.length) (h2 : W.nextLit ≤ W'.nextLit) (h3 : W'.log = e :: W.log) : OrdLog W' := by
  intro l v k hm
  rw [h3] at hm
  rcases List.mem_cons.mp hm with hm | hm
  · exact absurd hm.symm (he l v k)
  · have := h l v k hm
    exact ⟨by omega, by omega⟩
theorem OrdLog.same (h : OrdLog W) (h1 : W.vars.length ≤ W'.vars.length) (h2 : W.nextLit ≤ W'.nextLit) (h3 : W'.log = W.log) : OrdLog W' := by
  intro l v k hm
  rw [h3] at hm
  have := h l v k hm
  exact ⟨by omega, by omega⟩

theorem GotLit.ordLog {v : Nat} {k l : Int} (h : GotLit W v k l W') (hw : OrdLog W) (hp : 1 < W.nextLit) : OrdLog W' := by
  cases h with
  | low => exact hw
  | high => exact hw
  | old vs vs' l hv h1 h2 hm hs => exact hw.same (by simp) le_rfl rfl
  | new vs vs' l hv h1 h2 hm hs hl =>
    intro l' v' k' hm'
    simp only [List.mem_cons, reduceCtorEq, SEv.order.injEq, false_or] at hm'
    simp only [List.length_set]
    rcases hm' with ⟨rfl, rfl, rfl⟩ | hm'
    · refine ⟨?_, (List.getElem?_eq_some_iff.mp hv).1⟩
      rcases hl with rfl | rfl
      · rw [abs_of_pos (by omega)]; omega
      · rw [abs_neg, abs_of_pos (by omega)]; omega
    · have := hw l' v' k' hm'
      exact ⟨by omega, this.2⟩

theorem ord_book (W : World) (b : Book) (h : TI W ∧ OrdLog W) : TI { W with book := b } ∧ OrdLog { W with book := b } :=
  ⟨h.1.other rfl rfl rfl, h.2.same le_rfl le_rfl rfl⟩
theorem ord_prim : PrimT cc (fun _ _ => True) (fun W => TI W ∧ OrdLog W) where
  enable W := ord_book W _
  event W e he h := ⟨h.1.other rfl rfl rfl, h.2.ev (not_order he) rfl le_rfl rfl⟩
  literal v x := ⟨fun W a W' hx h => ⟨(ti_prim.literal cc v x).kw _ _ _ hx h.1, (getLiteral_eff h.1.wf (by have := h.1.pos; omega) hx).ordLog h.2 h.1.pos⟩⟩
  newLit := ⟨fun W a W' hx h => by
    obtain ⟨-, rfl⟩ := newLit_iff.mp hx
    exact ⟨ti_newLit h.1, h.2.ev (e := .lit W.nextLit) (by simp) rfl (by show W.nextLit ≤ W.nextLit + 1; omega) rfl⟩⟩
  addVar a b _ := ⟨fun W n W' hx h => by
    obtain ⟨g1, -, g3⟩ := addVar_appended hx
    exact ⟨h.1.ti_addVar hx, h.2.same (by omega) g1.next.ge g1.log⟩⟩

theorem nf_book (W : World) (b : Book) (h : TI W ∧ NoFact W) : TI { W with book := b } ∧ NoFact { W with book := b } :=
  ⟨h.1.other rfl rfl rfl, h.2⟩
theorem nf_prim : PrimT cc (fun _ _ => True) (fun W => TI W ∧ NoFact W) where
  enable W := nf_book W _
  event W e he h := ⟨h.1.other rfl rfl rfl, h.2⟩
  literal v x := ⟨fun W a W' hx h => ⟨(ti_prim.literal cc v x).kw _ _ _ hx h.1, (getLiteral_eff h.1.wf (by have := h.1.pos; omega) hx).noFact h.1.pos h.2⟩⟩
  newLit := ⟨fun W a W' hx h => by
    obtain ⟨-, rfl⟩ := newLit_iff.mp hx
    exact ⟨ti_newLit h.1, h.2⟩⟩
  addVar a b _ := ⟨fun W n W' hx h => by
    obtain ⟨g1, -, g3⟩ := addVar_appended hx
    exact ⟨h.1.ti_addVar hx, g1.noFact h.2⟩⟩

/-- What is faithful to an assignment was so before. -/
theorem Inv.back (h : Inv β σ W') (hs : Sub W W') (ht : TI W) : Inv β σ W := by
  obtain ⟨new, e⟩ := hs.log
  obtain ⟨newf, ef⟩ := hs.facts
  have hb : ∀ {vs vs' : VarState}, vs'.bounds = vs.bounds → vs'.minBound = vs.minBound ∧ vs'.maxBound = vs.maxBound := by
    intro vs vs' hb
    have := congrArg VarState.minBound hb
    have := congrArg VarState.maxBound hb
    exact ⟨by assumption, by assumption⟩
  have tab : ∀ v vs, W.vars[v]? = some vs → ∀ k l, (k, l) ∈ vs.with → (litTrue β l ↔ σ v ≤ k) := by
    intro v vs hv k l hm
    obtain ⟨vs', h1, -, h3⟩ := hs.vars v vs hv
    exact h.good.table v vs' h1 k l (h3 _ hm)
  refine ⟨⟨by have := ht.pos; omega, tab, fun v vs hv => ?_, fun i e' he hp => ?_, fun f v k p hm => ?_, fun ev hev => ?_⟩, ht.wf⟩
  · obtain ⟨vs', h1, h2, -⟩ := hs.vars v vs hv
    obtain ⟨b1, b2⟩ := hb h2
    rw [← b1, ← b2]
    exact h.good.bound v vs' h1
  · obtain ⟨-, vs, hv, -⟩ := ht.link i e' he hp
    exact tab _ vs hv _ _ (ht.mem i e' he hp vs hv)
  · exact h.good.facts f v k p (by rw [ef]; exact List.mem_append_left _ hm)
  · exact h.good.posted ev (by rw [e]; exact List.mem_append_right _ hev)

/-! ### Bookkeeping -/

/-- Nothing is pending on the top level. -/
structure Calm (F : List VarState × Book) : Prop where
  base : B0 F
  still : Still F

/-- The functions on which the translation of a constraint is built keep the property. -/
structure KeepT (P : List VarState × Book → Prop) : Prop where
  addVar : ∀ a b, Keep P (addVar a b)
  flag : ∀ b, Keep P (modify (fun W => { W with book.translateMinimize := b }) : SM Unit)

section
variable {P : List VarState × Book → Prop}
macro_rules | `(tactic| keep_step) => `(tactic| with_reducible exact KeepT.addVar (by assumption) _ _)
macro_rules | `(tactic| keep_step) => `(tactic| with_reducible exact KeepT.flag (by assumption) _)
theorem keepT_termRep (hP : KeepT P) {e : CoVarVec × Int} {a : Int × Int} : Keep P (termRep tc e a) := by
  unfold termRep; keep_auto
macro_rules | `(tactic| keep_step) => `(tactic| with_reducible exact keepT_termRep (by assumption))
theorem keepT_termVars (hP : KeepT P) {m : List (Int × Nat)} : ∀ {es : List (CoVarVec × Int)} {as : List (Int × Int)} {ds : List IntervalSet},
    Keep P (termVars tc m es as ds) := by
  intro es
  induction es with
  | nil => intro as ds; unfold termVars; keep_auto
  | cons e es ih =>
    intro as ds
    cases as with
    | nil => unfold termVars; keep_auto
    | cons a as =>
      cases ds with
      | nil => unfold termVars; keep_auto
      | cons d ds => unfold termVars; keep_auto <;> exact ih
macro_rules | `(tactic| keep_step) => `(tactic| with_reducible exact keepT_termVars (by assumption))
theorem keepT_distinctTranslate (hP : KeepT P) {c : CState} {l : Int} {es : List (CoVarVec × Int)} : Keep P (distinctTranslate cc tc c l es) := by
  unfold distinctTranslate; keep_auto
macro_rules | `(tactic| keep_step) => `(tactic| with_reducible exact keepT_distinctTranslate (by assumption))
theorem keepT_minimizeTranslate (hP : KeepT P) {a : Int} {es : CoVarVec} : Keep P (minimizeTranslate cc tc a es) := by
  unfold minimizeTranslate; keep_auto
macro_rules | `(tactic| keep_step) => `(tactic| with_reducible exact keepT_minimizeTranslate (by assumption))
theorem keepT_translateOne (hP : KeepT P) {k n : Nat} : Keep P (translateOne cc tc k n) := by
  unfold translateOne; keep_auto
end

theorem calm_keep : KeepT Calm where
  addVar a b := ⟨fun W x W' h hp => by
    obtain ⟨h1, -, -, h4, h5⟩ := hp.base.addVar h
    exact ⟨h1, ⟨h4.trans hp.still.low, h5.trans hp.still.upp⟩⟩⟩
  flag b := ⟨fun W x W' h hp => by
    rw [modify_iff.mp h]
    obtain ⟨⟨a1, a2, a3, a4, a5, a6, a7, a8, a9, a10, a11, a12, a13, a14, a15, a16, a17, a18, a19, a20⟩, ⟨b1, b2⟩⟩ := hp
    exact ⟨⟨a1, a2, a3, a4, a5, a6, a7, a8, a9, a10, a11, a12, a13, a14, a15, a16, a17, a18, a19, a20⟩, ⟨b1, b2⟩⟩⟩

theorem Calm.add (h : Calm (frame W)) {t : TCon} {n : Nat} (hx : t.add W = .ok (n, W')) : Calm (frame W') := by
  cases t with
  | old m => obtain ⟨-, rfl⟩ := pure_iff.mp hx; exact h
  | new c =>
    obtain ⟨h1, h2, -, -⟩ := h.base.addConstraint h.still hx
    exact ⟨h1, h2⟩

/-- The sums of constraints are exact. -/
theorem Calm.counted (h : Calm (frame W)) {n : Nat} {c : CState} (hc : W.book.cs[n]? = some c) (ha : c.alive = true) : Counted c (loF (frame W)) (upF (frame W)) := by
  have := (h.base.track n c hc ha).1
  obtain ⟨e1, e2⟩ := h.base.bi.quiet h.still
  rw [e1, e2] at this
  simpa using this

/-- The variables of a constraint exist. -/
theorem Calm.vars (h : Calm (frame W)) {n : Nat} {c : CState} (hc : W.book.cs[n]? = some c) (ha : c.alive = true) : ∀ w ∈ c.con.watches, w.2 < W.vars.length := by
  intro w hw
  have hp := ((h.base.track n c hc ha).2 w.2).1
  have hm : w.1 ∈ own c w.2 := List.mem_map.mpr ⟨w, List.mem_filter.mpr ⟨hw, by simp⟩, rfl⟩
  obtain ⟨x, hx, -⟩ := List.mem_map.mp (hp.mem_iff.mpr hm)
  have hx := List.mem_of_mem_filter hx
  have hl := h.base.lenW
  unfold wtF at hx
  by_contra hc
  have e : (frame W).2.watches[w.2]? = none := by
    rw [List.getElem?_eq_none_iff, hl]
    simpa [frame] using hc
  rw [List.getD_eq_getElem?_getD, e] at hx
  cases hx

/-- The values are between the current bounds. -/
theorem Calm.within (h : Calm (frame W)) (hi : Inv β σ W) {es : CoVarVec} (hv : ∀ e ∈ es, e.2 < W.vars.length) : Within (loF (frame W)) (upF (frame W)) σ es := by
  intro e he
  have hg : W.vars[e.2]? = some (W.vars[e.2]'(hv e he)) := List.getElem?_eq_getElem (hv e he)
  have h3 := hi.good.bound _ _ hg
  have e1 : (W.vars[e.2]'(hv e he)).lowerStack = [] := by
    have := h.base.stL e.2
    simp only [lstF, frame, List.getElem?_map, hg] at this
    simpa [VarState.bounds] using this
  have e2 : (W.vars[e.2]'(hv e he)).upperStack = [] := by
    have := h.base.stU e.2
    simp only [ustF, frame, List.getElem?_map, hg] at this
    simpa [VarState.bounds, negStk] using this
  unfold VarState.minBound VarState.maxBound at h3
  rw [e1, e2] at h3
  unfold loF upF frame
  rw [List.getElem?_map, hg]
  exact h3

theorem distinctWatches_var : ∀ {es : List (CoVarVec × Int)} {i : Nat} {e : CoVarVec × Int} {x : Int × Nat}, e ∈ es → x ∈ e.1 → ∃ w ∈ distinctWatches i es, w.2 = x.2
  | [], _, _, _, h, _ => by cases h
  | (a, b) :: es, i, e, x, h, hx => by
    unfold distinctWatches
    rcases List.mem_cons.mp h with rfl | h
    · exact ⟨_, List.mem_append_left _ (List.mem_map_of_mem hx), rfl⟩
    · obtain ⟨w, hw, e⟩ := distinctWatches_var (i := i + 1) h hx
      exact ⟨w, List.mem_append_right _ hw, e⟩

/-! ### Constraints that are added -/

/-- The constraints added by translations. -/
def Added (N : Nat) (c : Constr) : Prop := ∃ r es, c = .sum TRUE_LIT r es ∧ ∀ e ∈ es, e.1 ≠ 0 ∧ e.2 < N

theorem Added.mono {N M : Nat} {c : Constr} (h : Added N c) (hl : N ≤ M) : Added M c := by
  obtain ⟨r, es, e, h⟩ := h
  exact ⟨r, es, e, fun x hx => ⟨(h x hx).1, by have := (h x hx).2; omega⟩⟩

theorem Added.local {N : Nat} {c : Constr} {σ' : Nat → Int} (h : Added N c) (hs : ∀ v < N, σ' v = σ v) (hc : conHolds σ none c) : conHolds σ' none c := by
  obtain ⟨r, es, rfl, h⟩ := h
  have hc : wsum σ es ≤ r := hc
  show wsum σ' es ≤ r
  rw [wsum_local (fun e he => hs _ (h e he).2)]
  exact hc

theorem termRep_added {n : Nat} {lo up : Nat → Int} {e : CoVarVec × Int} {d : IntervalSet} {a : Int × Int} {p : DiffElem × List Constr} (hs : SortOk tc) (hd : DomOk n lo up e d)
    (hn : n ≤ W.vars.length) (hne : ∀ x ∈ e.1, x.1 ≠ 0) (h : termRep tc e a W = .ok (p, W')) : ∀ c ∈ p.2, Added W'.vars.length c := by
  obtain ⟨ev, ef⟩ := e
  unfold termRep at h
  dsimp only at h
  match ev, hd, h with
  | [(co, x)], hd, h => obtain ⟨rfl, rfl⟩ := pure_iff.mp h; intro c hc; cases hc
  | e1 :: e2 :: es, hd, h =>
    obtain ⟨v, W1, h1, h2⟩ := SM.bind_ok h
    obtain ⟨rfl, rfl⟩ := pure_iff.mp h2
    obtain ⟨g1, rfl, g2⟩ := addVar_appended h1
    have key : ∀ x ∈ ((-1, W.vars.length) :: e1 :: e2 :: es : CoVarVec), x.1 ≠ 0 ∧ x.2 < W'.vars.length := by
      intro x hx
      rcases List.mem_cons.mp hx with rfl | hx
      · exact ⟨by simp, by dsimp only; omega⟩
      · exact ⟨hne x hx, by have := hd.vars x hx; omega⟩
    intro c hc
    simp only [List.mem_cons, List.not_mem_nil, or_false] at hc
    rcases hc with rfl | rfl
    · exact ⟨_, _, rfl, fun x hx => key x ((hs _).mem_iff.mp hx)⟩
    · refine ⟨_, _, rfl, fun x hx => ?_⟩
      obtain ⟨y, hy, rfl⟩ := List.mem_map.mp ((hs _).mem_iff.mp hx)
      have := key y hy
      exact ⟨neg_ne_zero.mpr this.1, this.2⟩
  | [], hd, h => cases h

theorem termVars_added {n : Nat} {lo up : Nat → Int} {counts : List (Int × Nat)} (hs : SortOk tc) : ∀ {es : List (CoVarVec × Int)} {as : List (Int × Int)} {ds : List IntervalSet} {W W' : World}
    {p : List DiffElem × List Constr}, termVars tc counts es as ds W = .ok (p, W') → BoundsOk lo up es as → List.Forall₂ (DomOk n lo up) es ds → n ≤ W.vars.length →
    (∀ e ∈ es, ∀ x ∈ e.1, x.1 ≠ 0) → ∀ c ∈ p.2, Added W'.vars.length c := by
  intro es
  induction es with
  | nil =>
    intro as ds W W' p h ha hd hn _
    cases hd
    obtain ⟨rfl, rfl⟩ := pure_iff.mp h
    intro c hc; cases hc
  | cons e es ih =>
    intro as ds W W' p h ha hd hn hne
    cases hd with
    | @cons _ d _ ds hd0 hd =>
    cases as with
    | nil => cases h
    | cons a as =>
    obtain ⟨rfl, hb⟩ := ha.cons
    unfold termVars at h
    split_ifs at h with hc
    · obtain ⟨r, W1, h1, h⟩ := SM.bind_ok h
      obtain ⟨q, W2, h2, h⟩ := SM.bind_ok h
      obtain ⟨rfl, rfl⟩ := pure_iff.mp h
      obtain ⟨a1, -⟩ := termRep_ok hs hd0 hn h1
      obtain ⟨a2, -⟩ := termVars_ok hs h2 hb hd (hn.trans a1.len)
      intro c hc
      rcases List.mem_append.mp hc with hc | hc
      · exact (termRep_added hs hd0 hn (hne e (by simp)) h1 c hc).mono a2.len
      · exact ih h2 hb hd (hn.trans a1.len) (fun e he => hne e (by simp [he])) c hc
    · obtain ⟨q, W2, h2, h⟩ := SM.bind_ok h
      obtain ⟨rfl, rfl⟩ := pure_iff.mp h
      exact fun c hc => ih h2 hb hd hn (fun e he => hne e (by simp [he])) c hc

theorem distinctTranslate_added {c : CState} {lit : Int} {es : List (CoVarVec × Int)} {q : (Bool × Bool) × List Constr} (hs : SortOk tc)
    (hb : BoundsOk (loF (frame W)) (upF (frame W)) es c.assigned) (hne : ∀ e ∈ es, ∀ x ∈ e.1, x.1 ≠ 0) (h : distinctTranslate cc tc c lit es W = .ok (q, W')) :
    ∀ c ∈ q.2, Added W'.vars.length c := by
  unfold distinctTranslate at h
  split_ifs at h with hest
  · obtain ⟨rfl, rfl⟩ := pure_iff.mp h
    intro c hc; cases hc
  obtain ⟨ds, W1, h1, hA⟩ := SM.bind_ok h
  clear h
  obtain ⟨rfl, hd⟩ := termDomains_ok h1 hb
  obtain ⟨p, W2, h2, hB⟩ := SM.bind_ok hA
  clear hA
  obtain ⟨ret, W3, h3, hC⟩ := SM.bind_ok hB
  obtain ⟨rfl, rfl⟩ := pure_iff.mp hC
  rw [len_of_frame (fr_valueConstraints.fr _ _ _ h3)]
  exact termVars_added hs h2 hb hd le_rfl hne

/-! ### New order literals of objectives -/

section
variable {R : World → World → Prop}
theorem Closed.addMinimize (hR : Closed R) {l b : Int} : Pres R (addMinimize l b) := by
  unfold Clingcon.addMinimize
  refine ⟨fun W a W' h => ?_⟩
  rw [modify_iff.mp h]
  exact hR.ev _ _ _ rfl rfl rfl
macro_rules | `(tactic| pres_step) => `(tactic| with_reducible refine Closed.addMinimize (by assumption))
theorem Closed.minimizeValues (hR : Closed R) {co : Int} {v : Nat} : ∀ {n : Nat} {i : Int}, Pres R (minimizeValues cc co v n i) := by
  intro n
  induction n with
  | zero => intro i; unfold Clingcon.minimizeValues; pres_auto
  | succ n ih => intro i; unfold Clingcon.minimizeValues; pres_auto; exact ih
macro_rules | `(tactic| pres_step) => `(tactic| with_reducible refine Closed.minimizeValues (by assumption))
theorem Closed.minimizeElems (hR : Closed R) {es : CoVarVec} : Pres R (minimizeElems cc es) := by
  induction es with
  | nil => unfold Clingcon.minimizeElems; pres_auto
  | cons e es ih => obtain ⟨a, b⟩ := e; unfold Clingcon.minimizeElems; pres_auto
macro_rules | `(tactic| pres_step) => `(tactic| with_reducible refine Closed.minimizeElems (by assumption))
theorem Closed.minimizeTranslate (hR : Closed R) {a : Int} {es : CoVarVec} : Pres R (minimizeTranslate cc tc a es) := by
  unfold Clingcon.minimizeTranslate
  pres_auto
  exact reads_requiredLiterals.pres hR
end

end Clingcon
