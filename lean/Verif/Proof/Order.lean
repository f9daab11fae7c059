import Verif.Proof.Effects

/-! Order literals are faithful to assignments. -/
set_option linter.unusedSimpArgs false

namespace Clingcon
open Spec

/-! ### Truth of literals -/

theorem litTrue_neg {β : Nat → Bool} {l : Int} (h : l ≠ 0) : litTrue β (-l) ↔ ¬ litTrue β l := by
  unfold litTrue
  by_cases h1 : l > 0
  · rw [if_neg (by omega), if_pos h1, Int.natAbs_neg]; cases β l.natAbs <;> simp
  · rw [if_pos (by omega), if_neg h1, Int.natAbs_neg]; cases β l.natAbs <;> simp

theorem litTrue_false {β : Nat → Bool} (h : litTrue β 1) : ¬ litTrue β (-1) := by
  rw [litTrue_neg (by decide)]; simpa using h

/-! ### Changes of tables -/

/-- `vs'` is `vs` with the literal of the value `k` set to `x`. -/
structure SetTab (vs vs' : VarState) (k x : Int) : Prop where
  wf : vs'.WF
  eq : vs' = { vs with table := vs'.table }
  mem : ∀ a b, (a, b) ∈ vs'.with ↔ if a = k then b = x else (a, b) ∈ vs.with

/-- `vs'` is `vs` with another representation of the table. -/
structure SameTab (vs vs' : VarState) : Prop where
  wf : vs'.WF
  eq : vs' = { vs with table := vs'.table }
  mem : ∀ a b, (a, b) ∈ vs'.with ↔ (a, b) ∈ vs.with

/-- `vs'` is `vs` without the literal of the value `k`. -/
structure DelTab (vs vs' : VarState) (k : Int) : Prop where
  wf : vs'.WF
  eq : vs' = { vs with table := vs'.table }
  mem : ∀ a b, (a, b) ∈ vs'.with ↔ a ≠ k ∧ (a, b) ∈ vs.with

/-- All tables are well-formed. -/
def AllWF (W : World) : Prop := ∀ (v : Nat) (vs : VarState), W.vars[v]? = some vs → vs.WF

/-- The variable state without its table. -/
def VarState.bounds (vs : VarState) : VarState := { vs with table := .map [] }

/-- The parts of the state that are not affected by introducing order literals and posting clauses. -/
def frame (W : World) : List VarState × Book := (W.vars.map VarState.bounds, W.book)

theorem SetTab.bounds {vs vs' : VarState} {k x : Int} (h : SetTab vs vs' k x) : vs'.bounds = vs.bounds := by
  unfold VarState.bounds; rw [h.eq]
theorem SameTab.bounds {vs vs' : VarState} (h : SameTab vs vs') : vs'.bounds = vs.bounds := by
  unfold VarState.bounds; rw [h.eq]
theorem DelTab.bounds {vs vs' : VarState} {k : Int} (h : DelTab vs vs' k) : vs'.bounds = vs.bounds := by
  unfold VarState.bounds; rw [h.eq]

theorem bounds_min {vs vs' : VarState} (h : vs'.bounds = vs.bounds) : vs'.minBound = vs.minBound := by
  have : vs'.bounds.minBound = vs.bounds.minBound := by rw [h]
  exact this
theorem bounds_max {vs vs' : VarState} (h : vs'.bounds = vs.bounds) : vs'.maxBound = vs.maxBound := by
  have : vs'.bounds.maxBound = vs.bounds.maxBound := by rw [h]
  exact this

theorem map_set_bounds {vars : List VarState} {v : Nat} {vs vs' : VarState} (hv : vars[v]? = some vs)
    (h : vs'.bounds = vs.bounds) : (vars.set v vs').map VarState.bounds = vars.map VarState.bounds := by
  rw [List.map_set, h]
  apply List.ext_getElem?
  intro i
  rw [List.getElem?_set]
  split_ifs with h1 h2
  · subst h1; rw [List.getElem?_map, hv]; rfl
  · subst h1
    rw [List.getElem?_eq_none_iff.mpr (by omega)]
  · rfl

/-- The effect of `get_literal`. -/
inductive GotLit (W : World) (var : Nat) (value : Int) : Int → World → Prop
  | low (vs) : W.vars[var]? = some vs → value < vs.minBound → GotLit W var value (-TRUE_LIT) W
  | high (vs) : W.vars[var]? = some vs → vs.minBound ≤ value → vs.maxBound ≤ value → GotLit W var value TRUE_LIT W
  | old (vs vs' l) : W.vars[var]? = some vs → vs.minBound ≤ value → value < vs.maxBound → (value, l) ∈ vs.with →
      SameTab vs vs' → GotLit W var value l { W with vars := W.vars.set var vs' }
  | new (vs vs' l) : W.vars[var]? = some vs → vs.minBound ≤ value → value < vs.maxBound → (∀ l, (value, l) ∉ vs.with) →
      SetTab vs vs' value l → (l = W.nextLit ∨ l = -W.nextLit) →
      GotLit W var value l { W with
        vars := W.vars.set var vs'
        nextLit := W.nextLit + 1
        litmap := (linkP vs' l value (growTo (mapOffset l + 1) W.litmap)).set (mapOffset l)
          ⟨var, LitmapEntry.getSign l, value, vs'.litPrev value, vs'.litSucc value⟩
        log := .watch (-l) :: .watch l :: .order l var value :: .lit W.nextLit :: W.log }

theorem getLiteral_eff {cc : CC} {var : Nat} {value l : Int} {W W' : World} (hw : AllWF W) (hp : 0 < W.nextLit)
    (h : getLiteral cc var value W = .ok (l, W')) : GotLit W var value l W' := by
  unfold getLiteral at h
  simp only [smok] at h
  obtain ⟨vs, W1, ⟨hv, rfl⟩, h⟩ := h
  rcases h with ⟨h1, rfl, rfl⟩ | ⟨h1, h⟩
  · exact .low vs hv h1
  rcases h with ⟨h2, rfl, rfl⟩ | ⟨h2, h⟩
  · exact .high vs hv (by omega) h2
  obtain ⟨p, W2, ⟨hr, rfl⟩, _, W3, rfl, h⟩ := h
  have hwf := hw var vs hv
  have hlen : var < W2.vars.length := (List.getElem?_eq_some_iff.mp hv).1
  have hb : vs.minBound ≤ value ∧ value < vs.maxBound := ⟨by omega, by omega⟩
  rcases h with ⟨h3, h⟩ | ⟨h3, rfl, rfl⟩
  · obtain ⟨n, W4, ⟨rfl, rfl⟩, vs', W5, ⟨hwr, rfl⟩, _, W6, rfl, _, W7, ⟨hne, vs2, hv2, hne2, rfl⟩, _, W8, rfl, _, W9, rfl, rfl, rfl⟩ := h
    obtain ⟨o, vs1, e1, e2, e3⟩ := VarState.refer_ok hwf (x := if value ≥ cc.conf.signValue then -W2.nextLit else W2.nextLit)
      (by split_ifs <;> omega) hb
    rw [e1] at hr
    injection hr with hr
    subst hr
    rcases e3 with ⟨e3, -⟩ | ⟨-, e4, vs3, e5, e6, e7, e8⟩
    · exact absurd h3 e3
    · dsimp only at hwr hv2
      rw [e5] at hwr
      injection hwr with hwr
      subst hwr
      rw [List.set_set, List.getElem?_set_self hlen] at hv2
      injection hv2 with hv2
      subst hv2
      have := GotLit.new (W := W2) (var := var) (value := value) vs vs3
        (if value ≥ cc.conf.signValue then -W2.nextLit else W2.nextLit) hv hb.1 hb.2 e4 ⟨e6, e7, e8⟩
        (by split_ifs <;> simp)
      dsimp only
      rw [List.set_set]
      exact this
  · obtain ⟨o, vs1, e1, e2, e3⟩ := VarState.refer_ok hwf (x := 1) (by decide) hb
    rw [e1] at hr
    injection hr with hr
    subst hr
    rcases e3 with ⟨e3, e4, e5, e6⟩ | ⟨e3, -⟩
    · exact .old vs vs1 o hv hb.1 hb.2 e5 ⟨e4, e2, e6⟩
    · exact absurd e3 h3

/-- The effect of `update_literal` on the top level. -/
inductive UpdLit (W : World) (var : Nat) (value : Int) (t : Bool) : Int → World → Prop
  | got (l W') : GotLit W var value l W' → UpdLit W var value t l W'
  | fact (vs vs') : W.vars[var]? = some vs → vs.minBound ≤ value → value < vs.maxBound → (∀ l, (value, l) ∉ vs.with) →
      SetTab vs vs' value (if t then TRUE_LIT else -TRUE_LIT) →
      UpdLit W var value t (if t then TRUE_LIT else -TRUE_LIT) { W with
        vars := W.vars.set var vs'
        litmap := linkP vs' (if t then TRUE_LIT else -TRUE_LIT) value W.litmap
        factmap := W.factmap ++ [(if t then TRUE_LIT else -TRUE_LIT, var, value,
          if t then vs'.litSucc value else vs'.litPrev value)] }

theorem updateLiteral_eff {cc : CC} {var : Nat} {value l : Int} {truth : Option Bool} {W W' : World} (hw : AllWF W)
    (hp : 0 < W.nextLit) (h : updateLiteral cc var value truth W = .ok (l, W')) :
    (cc.level = 0 ∧ ∃ t, truth = some t ∧ UpdLit W var value t l W') ∨ GotLit W var value l W' := by
  unfold updateLiteral at h
  rw [bind_iff] at h
  obtain ⟨lvl, W1, h0, h⟩ := h
  rw [qLevel_iff] at h0
  obtain ⟨rfl, rfl⟩ := h0
  cases truth with
  | none => right; exact getLiteral_eff hw hp h
  | some t =>
    by_cases hl : cc.level > 0
    · right
      simp only [hl, decide_true] at h
      exact getLiteral_eff hw hp h
    left
    refine ⟨by omega, t, rfl, ?_⟩
    simp only [hl, decide_false, smok] at h
    obtain ⟨vs, W1, ⟨hv, rfl⟩, h⟩ := h
    rcases h with ⟨h1, rfl, rfl⟩ | ⟨h1, h⟩
    · exact .got _ _ (.low vs hv h1)
    rcases h with ⟨h2, rfl, rfl⟩ | ⟨h2, h⟩
    · exact .got _ _ (.high vs hv (by omega) h2)
    obtain ⟨p, W2, ⟨hr, rfl⟩, _, W3, rfl, h⟩ := h
    have hwf := hw var vs hv
    have hlen : var < W2.vars.length := (List.getElem?_eq_some_iff.mp hv).1
    have hb : vs.minBound ≤ value ∧ value < vs.maxBound := ⟨by omega, by omega⟩
    rcases h with ⟨h3, h⟩ | ⟨h3, rfl, rfl⟩
    · obtain ⟨vs', W5, ⟨hwr, rfl⟩, _, W6, rfl, ps, W7, ⟨vs2, hv2, rfl, rfl⟩, _, W8, rfl, rfl, rfl⟩ := h
      obtain ⟨o, vs1, e1, e2, e3⟩ := VarState.refer_ok hwf (x := if t = true then TRUE_LIT else -TRUE_LIT)
        (by unfold TRUE_LIT; split_ifs <;> omega) hb
      rw [e1] at hr
      injection hr with hr
      subst hr
      rcases e3 with ⟨e3, -⟩ | ⟨-, e4, vs3, e5, e6, e7, e8⟩
      · exact absurd h3 e3
      · dsimp only at hwr hv2
        rw [e5] at hwr
        injection hwr with hwr
        subst hwr
        rw [List.set_set, List.getElem?_set_self hlen] at hv2
        injection hv2 with hv2
        subst hv2
        have := UpdLit.fact (W := W2) (var := var) (value := value) (t := t) vs vs3 hv hb.1 hb.2 e4 ⟨e6, e7, e8⟩
        dsimp only
        rw [List.set_set]
        exact this
    · obtain ⟨o, vs1, e1, e2, e3⟩ := VarState.refer_ok hwf (x := 1) (by decide) hb
      rw [e1] at hr
      injection hr with hr
      subst hr
      rcases e3 with ⟨e3, e4, e5, e6⟩ | ⟨e3, -⟩
      · exact .got _ _ (.old vs vs1 o hv hb.1 hb.2 e5 ⟨e4, e2, e6⟩)
      · exact absurd e3 h3

/-! ### Maps from literals -/

/-- `m'` has the same entries as `m` up to links, and possibly fewer valid ones. -/
def SubMap (m m' : List LitmapEntry) : Prop :=
  ∀ (i : Nat) (e' : LitmapEntry), m'[i]? = some e' → e'.prev ≠ 0 → ∃ e, m[i]? = some e ∧ e.prev ≠ 0 ∧ e.var = e'.var ∧ e.sign = e'.sign ∧ e.value = e'.value

theorem SubMap.refl (m : List LitmapEntry) : SubMap m m := fun _ e h hp => ⟨e, h, hp, rfl, rfl, rfl⟩

theorem SubMap.trans {a b c : List LitmapEntry} (h1 : SubMap a b) (h2 : SubMap b c) : SubMap a c := by
  intro i e h hp
  obtain ⟨e1, g1, g2, g3, g4, g5⟩ := h2 i e h hp
  obtain ⟨e2, k1, k2, k3, k4, k5⟩ := h1 i e1 g1 g2
  exact ⟨e2, k1, k2, by rw [k3, g3], by rw [k4, g4], by rw [k5, g5]⟩

theorem SubMap.grow (n : Nat) (m : List LitmapEntry) : SubMap m (growTo n m) := by
  intro i e h hp
  unfold growTo at h
  rw [List.getElem?_append] at h
  split_ifs at h with h1
  · exact ⟨e, h, hp, rfl, rfl, rfl⟩
  · rw [List.getElem?_replicate] at h
    split_ifs at h
    injection h with h
    subst h
    exact absurd rfl hp

theorem SubMap.relink {l : Int} {upd : LitmapEntry → LitmapEntry} {m : List LitmapEntry}
    (hu : ∀ e, (upd e).var = e.var ∧ (upd e).sign = e.sign ∧ (upd e).value = e.value) : SubMap m (relinkP l upd m) := by
  unfold relinkP
  split_ifs with h
  · intro i e he hp
    rw [List.getElem?_set] at he
    split_ifs at he with h1 h2
    · injection he with he
      unfold entryAt at h he
      rw [if_neg h.1] at h he
      rw [List.getD_eq_getElem?_getD] at h he
      subst h1
      rw [List.getElem?_eq_getElem h2] at h he ⊢
      simp only [Option.getD_some] at h he
      obtain ⟨u1, u2, u3⟩ := hu m[mapOffset l]
      refine ⟨_, rfl, ?_, ?_, ?_, ?_⟩
      · have := h.2; unfold LitmapEntry.valid at this; simp at this; exact this.1
      · rw [← he, u1]
      · rw [← he, u2]
      · rw [← he, u3]
    · exact ⟨e, he, hp, rfl, rfl, rfl⟩
  · exact SubMap.refl m

theorem SubMap.link (vs : VarState) (lit value : Int) (m : List LitmapEntry) : SubMap m (linkP vs lit value m) := by
  unfold linkP
  refine SubMap.trans (SubMap.relink (l := vs.litLt value) ?_) (SubMap.relink ?_)
  · intro e; exact ⟨rfl, rfl, rfl⟩
  · intro e; exact ⟨rfl, rfl, rfl⟩

theorem SubMap.unset (i : Nat) (m : List LitmapEntry) (e : LitmapEntry) (h : e.prev = 0) : SubMap m (m.set i e) := by
  intro j e' he hp
  rw [List.getElem?_set] at he
  split_ifs at he
  · injection he with he; subst he; exact absurd h hp
  · exact ⟨e', he, hp, rfl, rfl, rfl⟩

/-! ### Faithful states -/

variable {β : Nat → Bool} {σ : Nat → Int} {W W' : World}

/-- Faithful states with well-formed tables. -/
structure Inv (β : Nat → Bool) (σ : Nat → Int) (W : World) : Prop where
  good : Good β σ W
  wf : AllWF W

theorem Inv.litmap {m : List LitmapEntry} (h : Inv β σ W) (hm : SubMap W.litmap m) : Inv β σ { W with litmap := m } := by
  refine ⟨⟨h.good.pos, h.good.table, h.good.bound, ?_, h.good.facts, h.good.posted⟩, h.wf⟩
  intro i e he hp
  obtain ⟨e1, g1, g2, g3, g4, g5⟩ := hm i e he hp
  have := h.good.litmap i e1 g1 g2
  rw [g3, g4, g5] at this
  exact this

theorem litOf_offset {l : Int} (h : l ≠ 0) :
    (if LitmapEntry.getSign l then ((mapOffset l + 1 : Nat) : Int) else -((mapOffset l + 1 : Nat) : Int)) = l := by
  unfold LitmapEntry.getSign mapOffset
  by_cases h1 : l > 0
  · simp only [h1, decide_true, if_true]; omega
  · simp only [h1, decide_false]; simp only [Bool.false_eq_true, if_false]; omega

theorem Inv.setEntry {l value p s : Int} {var : Nat} (h : Inv β σ W) (hl : l ≠ 0) (ht : litTrue β l ↔ σ var ≤ value) :
    Inv β σ { W with litmap := W.litmap.set (mapOffset l) ⟨var, LitmapEntry.getSign l, value, p, s⟩ } := by
  refine ⟨⟨h.good.pos, h.good.table, h.good.bound, ?_, h.good.facts, h.good.posted⟩, h.wf⟩
  intro i e he hp
  dsimp only at he
  rw [List.getElem?_set] at he
  split_ifs at he with h1 h2
  · injection he with he
    subst he
    dsimp only
    rw [← h1, litOf_offset hl]
    exact ht
  · exact h.good.litmap i e he hp

theorem Inv.log {e : SEv} (h : Inv β σ W) (he : evHolds β e) : Inv β σ { W with log := e :: W.log } := by
  refine ⟨⟨h.good.pos, h.good.table, h.good.bound, h.good.litmap, h.good.facts, ?_⟩, h.wf⟩
  intro e' he'
  rcases List.mem_cons.mp he' with rfl | h'
  · exact he
  · exact h.good.posted _ h'

theorem Inv.nextLit (h : Inv β σ W) : Inv β σ { W with nextLit := W.nextLit + 1 } :=
  ⟨⟨by have := h.good.pos; show 0 < W.nextLit + 1; omega, h.good.table, h.good.bound, h.good.litmap, h.good.facts, h.good.posted⟩, h.wf⟩

theorem Inv.book (h : Inv β σ W) (b : Book) : Inv β σ { W with book := b } :=
  ⟨⟨h.good.pos, h.good.table, h.good.bound, h.good.litmap, h.good.facts, h.good.posted⟩, h.wf⟩

theorem Inv.fact {l value p : Int} {var : Nat} (h : Inv β σ W) (hf : if l = TRUE_LIT then σ var ≤ value else value < σ var) :
    Inv β σ { W with factmap := W.factmap ++ [(l, var, value, p)] } := by
  refine ⟨⟨h.good.pos, h.good.table, h.good.bound, h.good.litmap, ?_, h.good.posted⟩, h.wf⟩
  intro f v k q hm
  rcases List.mem_append.mp hm with h' | h'
  · exact h.good.facts f v k q h'
  · simp only [List.mem_singleton, Prod.mk.injEq] at h'
    obtain ⟨rfl, rfl, rfl, rfl⟩ := h'
    exact hf

theorem Inv.vars {v : Nat} {vs : VarState} (h : Inv β σ W) (hwf : vs.WF)
    (ht : ∀ k l, (k, l) ∈ vs.with → (litTrue β l ↔ σ v ≤ k)) (hb : vs.minBound ≤ σ v ∧ σ v ≤ vs.maxBound) :
    Inv β σ { W with vars := W.vars.set v vs } := by
  have key : ∀ (P : Nat → VarState → Prop), P v vs → (∀ u us, W.vars[u]? = some us → P u us) →
      ∀ u us, (W.vars.set v vs)[u]? = some us → P u us := by
    intro P h1 h2 u us hu
    rw [List.getElem?_set] at hu
    split_ifs at hu with g1 g2
    · injection hu with hu; subst hu; subst g1; exact h1
    · exact h2 u us hu
  exact ⟨⟨h.good.pos, key (fun u us => ∀ k l, (k, l) ∈ us.with → (litTrue β l ↔ σ u ≤ k)) ht h.good.table,
    key (fun u us => us.minBound ≤ σ u ∧ σ u ≤ us.maxBound) hb h.good.bound, h.good.litmap, h.good.facts, h.good.posted⟩,
    key (fun _ us => us.WF) hwf h.wf⟩

theorem Inv.setTab {v : Nat} {vs vs' : VarState} {k x : Int} (h : Inv β σ W) (hv : W.vars[v]? = some vs)
    (hs : SetTab vs vs' k x) (hx : litTrue β x ↔ σ v ≤ k) : Inv β σ { W with vars := W.vars.set v vs' } := by
  apply h.vars hs.wf
  · intro a b hab
    rw [hs.mem] at hab
    split_ifs at hab with h1
    · subst hab; subst h1; exact hx
    · exact h.good.table v vs hv a b hab
  · rw [bounds_min hs.bounds, bounds_max hs.bounds]
    exact h.good.bound v vs hv

theorem Inv.sameTab {v : Nat} {vs vs' : VarState} (h : Inv β σ W) (hv : W.vars[v]? = some vs)
    (hs : SameTab vs vs') : Inv β σ { W with vars := W.vars.set v vs' } := by
  apply h.vars hs.wf
  · intro a b hab
    rw [hs.mem] at hab
    exact h.good.table v vs hv a b hab
  · rw [bounds_min hs.bounds, bounds_max hs.bounds]
    exact h.good.bound v vs hv

theorem Inv.delTab {v : Nat} {vs vs' : VarState} {k : Int} (h : Inv β σ W) (hv : W.vars[v]? = some vs)
    (hs : DelTab vs vs' k) : Inv β σ { W with vars := W.vars.set v vs' } := by
  apply h.vars hs.wf
  · intro a b hab
    rw [hs.mem] at hab
    exact h.good.table v vs hv a b hab.2
  · rw [bounds_min hs.bounds, bounds_max hs.bounds]
    exact h.good.bound v vs hv

/-- Introducing an order literal. -/
theorem GotLit.inv {var : Nat} {value l : Int} (tt : litTrue β 1) (h : GotLit W var value l W') (hi : Inv β σ W)
    (hr : Respects β σ W'.log) : Inv β σ W' ∧ frame W' = frame W ∧ l ≠ 0 ∧ (litTrue β l ↔ σ var ≤ value) := by
  have hpos := hi.good.pos
  cases h with
  | low vs hv h1 =>
    refine ⟨hi, rfl, by decide, ?_⟩
    have := (hi.good.bound var vs hv).1
    constructor
    · intro h; exact absurd h (litTrue_false tt)
    · intro h; omega
  | high vs hv h1 h2 =>
    refine ⟨hi, rfl, by decide, ?_⟩
    have := (hi.good.bound var vs hv).2
    constructor
    · intro h; omega
    · intro h; exact tt
  | old vs vs' l hv h1 h2 hm hs =>
    refine ⟨hi.sameTab hv hs, ?_, VarState.with_nonzero (hi.wf _ _ hv) hm, hi.good.table _ _ hv _ _ hm⟩
    unfold frame
    rw [map_set_bounds hv hs.bounds]
  | new vs vs' l hv h1 h2 hn hs hl =>
    have hl0 : l ≠ 0 := by omega
    have ht : litTrue β l ↔ σ var ≤ value := hr l var value (by simp)
    refine ⟨?_, ?_, hl0, ht⟩
    · have i1 := (hi.setTab hv hs ht).litmap (SubMap.trans (SubMap.grow (mapOffset l + 1) W.litmap) (SubMap.link vs' l value _))
      have i2 := i1.setEntry (p := vs'.litPrev value) (s := vs'.litSucc value) hl0 ht
      exact ((((i2.log (e := .lit W.nextLit) trivial).log (e := .order l var value) trivial).log (e := .watch l) trivial).log
        (e := .watch (-l)) trivial).nextLit
    · unfold frame
      dsimp only
      rw [map_set_bounds hv hs.bounds]

theorem GotLit.log {var : Nat} {value l : Int} (h : GotLit W var value l W') : ∃ new, W'.log = new ++ W.log := by
  cases h with
  | low => exact ⟨[], rfl⟩
  | high => exact ⟨[], rfl⟩
  | old => exact ⟨[], rfl⟩
  | new vs vs' l => exact ⟨[_, _, _, _], rfl⟩

variable {F : List VarState × Book} {m : Bool}

/-- Faithful states with given bounds and other parts. -/
def InvF (β : Nat → Bool) (σ : Nat → Int) (F : List VarState × Book) (W : World) : Prop := Inv β σ W ∧ frame W = F

theorem tr_getLiteral {cc : CC} {var : Nat} {value : Int} (tt : litTrue β 1) :
    Tr β σ m (InvF β σ F) (getLiteral cc var value)
      (fun l W => InvF β σ F W ∧ l ≠ 0 ∧ (litTrue β l ↔ σ var ≤ value)) := by
  intro W l W' h
  refine ⟨ext_getLiteral.ext _ _ _ h, ?_⟩
  rintro ⟨hi, hf⟩ hr
  obtain ⟨a, b, c, d⟩ := (getLiteral_eff hi.wf hi.good.pos h).inv tt hi hr.1
  exact ⟨⟨a, b.trans hf⟩, c, d⟩

theorem litTrue_sign {t : Bool} (tt : litTrue β 1) : litTrue β (if t then TRUE_LIT else -TRUE_LIT) ↔ t = true := by
  cases t with
  | true => simpa [TRUE_LIT] using tt
  | false => simpa [TRUE_LIT] using litTrue_false tt

theorem tr_updateLiteral {cc : CC} {var : Nat} {value : Int} {truth : Option Bool} (tt : litTrue β 1)
    (ht : ∀ t, truth = some t → cc.level = 0 → (t = true ↔ σ var ≤ value)) :
    Tr β σ m (InvF β σ F) (updateLiteral cc var value truth)
      (fun l W => InvF β σ F W ∧ l ≠ 0 ∧ (litTrue β l ↔ σ var ≤ value)) := by
  intro W l W' h
  refine ⟨ext_updateLiteral.ext _ _ _ h, ?_⟩
  rintro ⟨hi, hf⟩ hr
  have got : ∀ {W'}, GotLit W var value l W' → Respects β σ W'.log → InvF β σ F W' ∧ l ≠ 0 ∧ (litTrue β l ↔ σ var ≤ value) := by
    intro W' hg hr
    obtain ⟨a, b, c, d⟩ := hg.inv tt hi hr
    exact ⟨⟨a, b.trans hf⟩, c, d⟩
  rcases updateLiteral_eff hi.wf hi.good.pos h with ⟨h0, t, rfl, h1⟩ | h1
  · cases h1 with
    | got _ _ hg => exact got hg hr.1
    | fact vs vs' hv h1 h2 hn hs =>
      have key := ht t rfl h0
      refine ⟨⟨?_, ?_⟩, by unfold TRUE_LIT; split_ifs <;> decide, (litTrue_sign tt).trans key⟩
      · have i1 := (hi.setTab hv hs ((litTrue_sign tt).trans key)).litmap (SubMap.link vs' (if t then TRUE_LIT else -TRUE_LIT) value _)
        refine i1.fact ?_
        cases t with
        | true => simpa using key
        | false => rw [if_neg (by decide)]; simpa using key
      · rw [← hf]
        unfold frame
        dsimp only
        rw [map_set_bounds hv hs.bounds]
  · exact got h1 hr.1

end Clingcon
