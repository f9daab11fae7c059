import Verif.Proof.Simple
import Verif.Spec.Links

/-! The map from literals to order literals agrees with the tables of the variables. -/
set_option linter.unusedSimpArgs false
namespace Clingcon
open Spec VarState

variable {W W' : World}

/-- Tables and the map from literals agree. -/
structure TI (W : World) : Prop where
  wf : AllWF W
  pos : 1 < W.nextLit
  small : (W.litmap.length : Int) < W.nextLit
  link : ∀ (i : Nat) (e : LitmapEntry), W.litmap[i]? = some e → e.prev ≠ 0 →
    0 < i ∧ ∃ vs, W.vars[e.var]? = some vs ∧ IsPrev vs.with e.value e.prev ∧ IsSucc vs.with e.value e.succ
  mem : ∀ (i : Nat) (e : LitmapEntry), W.litmap[i]? = some e → e.prev ≠ 0 →
    ∀ vs, W.vars[e.var]? = some vs → (e.value, litAt i e.sign) ∈ vs.with
  own : ∀ (v : Nat) (vs : VarState) (k l : Int), W.vars[v]? = some vs → (k, l) ∈ vs.with → l.natAbs ≠ 1 →
    ∃ e, W.litmap[mapOffset l]? = some e ∧ e.prev ≠ 0 ∧ e.var = v ∧ e.value = k ∧ e.sign = LitmapEntry.getSign l

theorem with_unique {vs : VarState} (h : vs.WF) {k a b : Int} (ha : (k, a) ∈ vs.with) (hb : (k, b) ∈ vs.with) : a = b := by
  have hs := with_sorted h
  by_contra hne
  obtain ⟨i, hi, ei⟩ := List.getElem_of_mem ha
  obtain ⟨j, hj, ej⟩ := List.getElem_of_mem hb
  have hp := List.pairwise_iff_getElem.mp hs
  rcases lt_trichotomy i j with h1 | h1 | h1
  · have := hp i j hi hj h1
    rw [ei, ej] at this; exact lt_irrefl _ this
  · subst h1
    rw [ei] at ej
    exact hne (congrArg Prod.snd ej)
  · have := hp j i hj hi h1
    rw [ei, ej] at this; exact lt_irrefl _ this

theorem litPrev_is {vs : VarState} (h : vs.WF) (k : Int) : IsPrev vs.with k (vs.litPrev k) := by
  unfold litPrev
  rcases litLt_spec h k with ⟨h1, h2⟩ | ⟨h1, j, h2, h3, h4⟩
  · rw [if_neg (by simpa using h1)]
    exact Or.inr ⟨rfl, h2⟩
  · rw [if_pos h1]
    refine Or.inl ⟨j, h3, h2, fun j' l' hm hlt => ?_⟩
    have := h4 j' l' hm
    omega

theorem litSucc_is {vs : VarState} (h : vs.WF) (k : Int) : IsSucc vs.with k (vs.litSucc k) := by
  unfold litSucc
  rcases litGt_spec h k with ⟨h1, h2⟩ | ⟨h1, j, h2, h3, h4⟩
  · rw [if_neg (by simpa using h1)]
    exact Or.inr ⟨rfl, h2⟩
  · rw [if_pos h1]
    refine Or.inl ⟨j, h3, h2, fun j' l' hm hlt => ?_⟩
    have := h4 j' l' hm
    omega

theorem mapOffset_litAt (i : Nat) (s : Bool) : mapOffset (litAt i s) = i := by
  unfold mapOffset litAt; split_ifs <;> omega
theorem getSign_litAt (i : Nat) (s : Bool) : LitmapEntry.getSign (litAt i s) = s := by
  unfold LitmapEntry.getSign litAt
  cases s
  · rw [if_neg (by decide)]; exact decide_eq_false (by omega)
  · rw [if_pos rfl]; exact decide_eq_true (by omega)
theorem litAt_offset {l : Int} (h : l ≠ 0) : litAt (mapOffset l) (LitmapEntry.getSign l) = l := by
  unfold LitmapEntry.getSign mapOffset litAt
  by_cases h1 : l > 0
  · simp only [h1, decide_true, if_true]; omega
  · simp only [h1, decide_false]; simp only [Bool.false_eq_true, if_false]; omega

/-! ### Changing one value of a table -/

/-- The tables agree except for the value `k`. -/
def OffVal (vs vs' : VarState) (k : Int) : Prop := ∀ a b, a ≠ k → ((a, b) ∈ vs'.with ↔ (a, b) ∈ vs.with)

theorem OffVal.symm {vs vs' : VarState} {k : Int} (h : OffVal vs vs' k) : OffVal vs' vs k := fun a b ha => (h a b ha).symm
theorem OffVal.trans {vs vs' vs'' : VarState} {k : Int} (h : OffVal vs vs' k) (h' : OffVal vs' vs'' k) : OffVal vs vs'' k :=
  fun a b ha => (h' a b ha).trans (h a b ha)
theorem OffVal.refl (vs : VarState) (k : Int) : OffVal vs vs k := fun _ _ _ => Iff.rfl
theorem SetTab.off {vs vs' : VarState} {k x : Int} (h : SetTab vs vs' k x) : OffVal vs vs' k :=
  fun a b ha => by rw [h.mem, if_neg ha]
theorem DelTab.off {vs vs' : VarState} {k : Int} (h : DelTab vs vs' k) : OffVal vs vs' k :=
  fun a b ha => by rw [h.mem]; simp [ha]

theorem OffVal.prev {vs vs' : VarState} {k a l : Int} (h : OffVal vs vs' k) (ha : a ≤ k) (hp : IsPrev vs.with a l) : IsPrev vs'.with a l := by
  rcases hp with ⟨j, h1, h2, h3⟩ | ⟨h1, h2⟩
  · exact Or.inl ⟨j, (h j l (by omega)).mpr h1, h2, fun j' l' hm hlt => h3 j' l' ((h j' l' (by omega)).mp hm) hlt⟩
  · exact Or.inr ⟨h1, fun j l' hm hlt => h2 j l' ((h j l' (by omega)).mp hm) hlt⟩

theorem OffVal.succ {vs vs' : VarState} {k a l : Int} (h : OffVal vs vs' k) (ha : k ≤ a) (hp : IsSucc vs.with a l) : IsSucc vs'.with a l := by
  rcases hp with ⟨j, h1, h2, h3⟩ | ⟨h1, h2⟩
  · exact Or.inl ⟨j, (h j l (by omega)).mpr h1, h2, fun j' l' hm hlt => h3 j' l' ((h j' l' (by omega)).mp hm) hlt⟩
  · exact Or.inr ⟨h1, fun j l' hm hlt => h2 j l' ((h j l' (by omega)).mp hm) hlt⟩

/-- If there is a value strictly between, the link does not cross `k`. -/
theorem OffVal.succ_far {vs vs' : VarState} {k a l b x : Int} (h : OffVal vs vs' k) (h1 : a < b) (h2 : b < k) (hb : (b, x) ∈ vs.with)
    (hp : IsSucc vs.with a l) : IsSucc vs'.with a l := by
  rcases hp with ⟨j, g1, g2, g3⟩ | ⟨g1, g2⟩
  · have := g3 b x hb h1
    refine Or.inl ⟨j, (h j l (by omega)).mpr g1, g2, fun j' l' hm hlt => ?_⟩
    by_cases hk : j' = k
    · omega
    · exact g3 j' l' ((h j' l' hk).mp hm) hlt
  · exact absurd h1 (g2 b x hb)

theorem OffVal.prev_far {vs vs' : VarState} {k a l b x : Int} (h : OffVal vs vs' k) (h1 : b < a) (h2 : k < b) (hb : (b, x) ∈ vs.with)
    (hp : IsPrev vs.with a l) : IsPrev vs'.with a l := by
  rcases hp with ⟨j, g1, g2, g3⟩ | ⟨g1, g2⟩
  · have := g3 b x hb h1
    refine Or.inl ⟨j, (h j l (by omega)).mpr g1, g2, fun j' l' hm hlt => ?_⟩
    by_cases hk : j' = k
    · omega
    · exact g3 j' l' ((h j' l' hk).mp hm) hlt
  · exact absurd h1 (g2 b x hb)

/-- What `vs'` has for the value `k`. -/
def AtVal (vs' : VarState) (k lit : Int) : Prop := (lit ≠ 0 → (k, lit) ∈ vs'.with) ∧ (lit = 0 → ∀ b, (k, b) ∉ vs'.with)

/-- The new link of the next smaller value. -/
theorem succ_new {u vs' : VarState} {k a lit : Int} (hu : u.WF) (h : OffVal u vs' k) (hk : AtVal vs' k lit) (ha : a < k)
    (hn : ∀ b x, (b, x) ∈ u.with → a < b → ¬ b < k) : IsSucc vs'.with a (if lit ≠ 0 then lit else u.litSucc k) := by
  by_cases h0 : lit = 0
  · rw [if_neg (by simpa using h0)]
    have no : ∀ j l', (j, l') ∈ vs'.with → a < j → k < j ∧ (j, l') ∈ u.with := by
      intro j l' hm hlt
      have hne : j ≠ k := by rintro rfl; exact hk.2 h0 _ hm
      have hm' := (h j l' hne).mp hm
      have := hn j l' hm' hlt
      exact ⟨by omega, hm'⟩
    rcases litSucc_is hu k with ⟨j, h1, h2, h3⟩ | ⟨h1, h2⟩
    · refine Or.inl ⟨j, (h j _ (by omega)).mpr h1, by omega, fun j' l' hm hlt => ?_⟩
      obtain ⟨g1, g2⟩ := no j' l' hm hlt
      exact h3 j' l' g2 g1
    · refine Or.inr ⟨h1, fun j l' hm hlt => ?_⟩
      obtain ⟨g1, g2⟩ := no j l' hm hlt
      exact h2 j l' g2 g1
  · rw [if_pos h0]
    refine Or.inl ⟨k, hk.1 h0, ha, fun j' l' hm hlt => ?_⟩
    by_cases hne : j' = k
    · omega
    · have := hn j' l' ((h j' l' hne).mp hm) hlt; omega

theorem prev_new {u vs' : VarState} {k a lit : Int} (hu : u.WF) (h : OffVal u vs' k) (hk : AtVal vs' k lit) (ha : k < a)
    (hn : ∀ b x, (b, x) ∈ u.with → b < a → ¬ k < b) : IsPrev vs'.with a (if lit ≠ 0 then lit else u.litPrev k) := by
  by_cases h0 : lit = 0
  · rw [if_neg (by simpa using h0)]
    have no : ∀ j l', (j, l') ∈ vs'.with → j < a → j < k ∧ (j, l') ∈ u.with := by
      intro j l' hm hlt
      have hne : j ≠ k := by rintro rfl; exact hk.2 h0 _ hm
      have hm' := (h j l' hne).mp hm
      have := hn j l' hm' hlt
      exact ⟨by omega, hm'⟩
    rcases litPrev_is hu k with ⟨j, h1, h2, h3⟩ | ⟨h1, h2⟩
    · refine Or.inl ⟨j, (h j _ (by omega)).mpr h1, by omega, fun j' l' hm hlt => ?_⟩
      obtain ⟨g1, g2⟩ := no j' l' hm hlt
      exact h3 j' l' g2 g1
    · refine Or.inr ⟨h1, fun j l' hm hlt => ?_⟩
      obtain ⟨g1, g2⟩ := no j l' hm hlt
      exact h2 j l' g2 g1
  · rw [if_pos h0]
    refine Or.inl ⟨k, hk.1 h0, ha, fun j' l' hm hlt => ?_⟩
    by_cases hne : j' = k
    · omega
    · have := hn j' l' ((h j' l' hne).mp hm) hlt; omega

/-! ### Links after a change -/

theorem entryAt_some {m : List LitmapEntry} {l : Int} {e : LitmapEntry} (h0 : l ≠ 0) (h : m[mapOffset l]? = some e) : entryAt m l = e := by
  unfold entryAt
  rw [if_neg h0, List.getD_eq_getElem?_getD, h]; rfl

theorem valid_iff {e : LitmapEntry} {l : Int} : e.valid l = true ↔ e.prev ≠ 0 ∧ e.sign = LitmapEntry.getSign l := by
  unfold LitmapEntry.valid
  rw [Bool.and_eq_true, bne_iff_ne, beq_iff_eq]
  exact ⟨fun h => ⟨h.1, h.2.symm⟩, fun h => ⟨h.1, h.2.symm⟩⟩

/-- The literal `l` belongs to the entry at position `i`. -/
def Hit (m : List LitmapEntry) (l : Int) (i : Nat) : Prop := l ≠ 0 ∧ (entryAt m l).valid l = true ∧ mapOffset l = i

theorem relinkP_get {m : List LitmapEntry} {l : Int} {upd : LitmapEntry → LitmapEntry} {i : Nat} {e' : LitmapEntry} :
    (relinkP l upd m)[i]? = some e' ↔ ∃ e, m[i]? = some e ∧ ((Hit m l i ∧ e' = upd e) ∨ (¬ Hit m l i ∧ e' = e)) := by
  unfold relinkP
  split_ifs with h
  · rw [List.getElem?_set]
    have hv := entry_valid h.2
    by_cases hi : mapOffset l = i
    · subst hi
      have hl : mapOffset l < m.length := (List.getElem?_eq_some_iff.mp hv.2.1).1
      rw [if_pos rfl, if_pos hl]
      have hh : Hit m l (mapOffset l) := ⟨h.1, h.2, rfl⟩
      constructor
      · intro g; injection g with g
        exact ⟨_, hv.2.1, Or.inl ⟨hh, g.symm⟩⟩
      · rintro ⟨e, g1, g2⟩
        rw [hv.2.1] at g1
        injection g1 with g1
        rcases g2 with ⟨-, g2⟩ | ⟨g2, -⟩
        · rw [g2, g1]
        · exact absurd hh g2
    · rw [if_neg hi]
      have hh : ¬ Hit m l i := fun g => hi g.2.2
      simp [hh]
  · have hh : ¬ Hit m l i := fun g => h ⟨g.1, g.2.1⟩
    simp [hh]

theorem relinkP_length {m : List LitmapEntry} {l : Int} {upd : LitmapEntry → LitmapEntry} : (relinkP l upd m).length = m.length := by
  unfold relinkP; split_ifs <;> simp

theorem linkP_length {vs : VarState} {lit k : Int} {m : List LitmapEntry} : (linkP vs lit k m).length = m.length := by
  unfold linkP; rw [relinkP_length, relinkP_length]

theorem hit_relink {m : List LitmapEntry} {l l' : Int} {upd : LitmapEntry → LitmapEntry} {i : Nat}
    (hu : ∀ e, (upd e).prev = e.prev ∧ (upd e).sign = e.sign) : Hit (relinkP l upd m) l' i ↔ Hit m l' i := by
  unfold Hit
  have : l' ≠ 0 → ((entryAt (relinkP l upd m) l').valid l' = true ↔ (entryAt m l').valid l' = true) := by
    intro h0
    rw [valid_iff, valid_iff]
    unfold entryAt
    rw [if_neg h0, if_neg h0, List.getD_eq_getElem?_getD, List.getD_eq_getElem?_getD]
    cases h : m[mapOffset l']? with
    | none =>
      have : (relinkP l upd m)[mapOffset l']? = none := by
        rw [List.getElem?_eq_none_iff] at h ⊢; rw [relinkP_length]; exact h
      rw [this]
    | some e =>
      have hl : mapOffset l' < (relinkP l upd m).length := by rw [relinkP_length]; exact (List.getElem?_eq_some_iff.mp h).1
      obtain ⟨e1, g1, g2⟩ := relinkP_get.mp (List.getElem?_eq_getElem hl)
      rw [h] at g1; injection g1 with g1; subst g1
      rw [List.getElem?_eq_getElem hl]
      simp only [Option.getD_some]
      rcases g2 with ⟨-, g2⟩ | ⟨-, g2⟩
      · rw [g2, (hu e).1, (hu e).2]
      · rw [g2]
  constructor
  · rintro ⟨a, b, c⟩; exact ⟨a, (this a).mp b, c⟩
  · rintro ⟨a, b, c⟩; exact ⟨a, (this a).mpr b, c⟩

theorem linkP_get {vs : VarState} {lit k : Int} {m : List LitmapEntry} {i : Nat} {e' : LitmapEntry} (h : (linkP vs lit k m)[i]? = some e') :
    ∃ e, m[i]? = some e ∧ e'.var = e.var ∧ e'.sign = e.sign ∧ e'.value = e.value ∧
      ((Hit m (vs.litLt k) i ∧ e'.succ = if lit ≠ 0 then lit else vs.litSucc k) ∨ (¬ Hit m (vs.litLt k) i ∧ e'.succ = e.succ)) ∧
      ((Hit m (vs.litGt k) i ∧ e'.prev = if lit ≠ 0 then lit else vs.litPrev k) ∨ (¬ Hit m (vs.litGt k) i ∧ e'.prev = e.prev)) := by
  unfold linkP at h
  obtain ⟨e1, g1, g2⟩ := relinkP_get.mp h
  obtain ⟨e2, g3, g4⟩ := relinkP_get.mp g1
  rw [hit_relink (upd := fun e => { e with succ := if lit ≠ 0 then lit else vs.litSucc k }) (fun e => ⟨rfl, rfl⟩)] at g2
  refine ⟨e2, g3, ?_⟩
  rcases g2 with ⟨a, rfl⟩ | ⟨a, rfl⟩ <;> rcases g4 with ⟨b, rfl⟩ | ⟨b, rfl⟩ <;> simp [a, b]

theorem linkP_valid {vs : VarState} {lit k : Int} {m : List LitmapEntry} {i : Nat} {e e' : LitmapEntry} (h : (linkP vs lit k m)[i]? = some e')
    (he : m[i]? = some e) : e'.var = e.var ∧ e'.sign = e.sign ∧ e'.value = e.value ∧ (e'.prev ≠ 0 ↔ e.prev ≠ 0) := by
  obtain ⟨e1, g1, g2, g3, g4, g5, g6⟩ := linkP_get h
  rw [he] at g1; injection g1 with g1; subst g1
  refine ⟨g2, g3, g4, ?_⟩
  rcases g6 with ⟨hh, g6⟩ | ⟨-, g6⟩
  · have hv := entry_valid hh.2.1
    rw [hh.2.2, he] at hv
    have h1 : e.prev ≠ 0 := by
      have := hv.2.1; injection this with this; rw [this]; exact hv.2.2.1
    rw [g6]
    refine ⟨fun _ => h1, fun _ => ?_⟩
    split_ifs with h0
    · exact h0
    · exact litPrev_ne
  · rw [g6]

theorem linkP_some {vs : VarState} {lit k : Int} {m : List LitmapEntry} {i : Nat} {e : LitmapEntry} (he : m[i]? = some e) :
    ∃ e', (linkP vs lit k m)[i]? = some e' ∧ e'.var = e.var ∧ e'.sign = e.sign ∧ e'.value = e.value ∧ (e'.prev ≠ 0 ↔ e.prev ≠ 0) := by
  have hl : i < (linkP vs lit k m).length := by rw [linkP_length]; exact (List.getElem?_eq_some_iff.mp he).1
  have h := List.getElem?_eq_getElem hl
  exact ⟨_, h, linkP_valid h he⟩

/-- After changing the value `k` of the variable `v`, all links are right again. -/
theorem TI.relink {v : Nat} {vs vs' u : VarState} {k lit : Int} (h : TI W) (hv : W.vars[v]? = some vs) (hu : u.WF)
    (ho : OffVal vs vs' k) (hou : OffVal vs u k) (hk : AtVal vs' k lit) {i : Nat} {e' : LitmapEntry}
    (hm : (linkP u lit k W.litmap)[i]? = some e') (hp : e'.prev ≠ 0) :
    0 < i ∧ ∃ x, (W.vars.set v vs')[e'.var]? = some x ∧ IsPrev x.with e'.value e'.prev ∧ IsSucc x.with e'.value e'.succ := by
  obtain ⟨e, g1, g2, g3, g4, g5, g6⟩ := linkP_get hm
  have hpe : e.prev ≠ 0 := (linkP_valid hm g1).2.2.2.mp hp
  obtain ⟨hi, y, hy, l1, l2⟩ := h.link i e g1 hpe
  have hmem := h.mem i e g1 hpe y hy
  refine ⟨hi, ?_⟩
  -- an entry found through a literal of the table of `v` belongs to `v`
  have hit : ∀ {j l : Int}, (j, l) ∈ u.with → j ≠ k → Hit W.litmap l i → e.var = v ∧ e.value = j := by
    intro j l hjl hjk hh
    have h2 : l.natAbs ≠ 1 := by
      have := hh.2.2; unfold mapOffset at this; omega
    obtain ⟨e1, k1, k2, k3, k4, k5⟩ := h.own v vs j l hv ((hou j l hjk).mp hjl) h2
    rw [hh.2.2, g1] at k1
    injection k1 with k1; subst k1
    exact ⟨k3, k4⟩
  have hhit : ∀ {l : Int}, (e.value, l) ∈ u.with → e.var = v → e.value ≠ k → Hit W.litmap l i := by
    intro l hl hev hek
    have : (e.value, litAt i e.sign) ∈ u.with := by
      rw [hev, hv] at hy; injection hy with hy; subst hy
      exact (hou _ _ hek).mpr hmem
    have hl' := with_unique hu hl this
    subst hl'
    have h0 : litAt i e.sign ≠ 0 := by unfold litAt; split_ifs <;> omega
    refine ⟨h0, ?_, mapOffset_litAt _ _⟩
    rw [entryAt_some (e := e) h0 (by rw [mapOffset_litAt]; exact g1), valid_iff, getSign_litAt]
    exact ⟨hpe, rfl⟩
  by_cases hev : e.var = v
  · rw [hev, hv] at hy; injection hy with hy; subst hy
    have hlen : v < W.vars.length := (List.getElem?_eq_some_iff.mp hv).1
    refine ⟨vs', by rw [g2, hev, List.getElem?_set_self hlen], ?_, ?_⟩
    · rw [g4]
      rcases g6 with ⟨hh, g6⟩ | ⟨hh, g6⟩
      · rw [g6]
        rcases litGt_spec hu k with ⟨c1, -⟩ | ⟨c1, j, c2, c3, c4⟩
        · exact absurd c1 hh.1
        · obtain ⟨-, d2⟩ := hit c3 (by omega) hh
          rw [d2]
          exact prev_new hu (hou.symm.trans ho) hk c2 (fun b x hb hlt hgt => c4 b x hb hlt hgt)
      · rw [g6]
        by_cases hek : e.value ≤ k
        · exact ho.prev hek l1
        · rcases litGt_spec hu k with ⟨-, c2⟩ | ⟨c1, j, c2, c3, c4⟩
          · exact absurd (by omega) (c2 _ _ ((hou e.value _ (by omega)).mpr hmem))
          · by_cases hj : j = e.value
            · subst hj; exact absurd (hhit c3 hev (by omega)) hh
            · have := c4 e.value _ ((hou e.value _ (by omega)).mpr hmem)
              exact ho.prev_far (b := j) (by omega) c2 ((hou j _ (by omega)).mp c3) l1
    · rw [g4]
      rcases g5 with ⟨hh, g5⟩ | ⟨hh, g5⟩
      · rw [g5]
        rcases litLt_spec hu k with ⟨c1, -⟩ | ⟨c1, j, c2, c3, c4⟩
        · exact absurd c1 hh.1
        · obtain ⟨-, d2⟩ := hit c3 (by omega) hh
          rw [d2]
          exact succ_new hu (hou.symm.trans ho) hk c2 (fun b x hb hlt hgt => c4 b x hb hlt hgt)
      · rw [g5]
        by_cases hek : k ≤ e.value
        · exact ho.succ hek l2
        · rcases litLt_spec hu k with ⟨-, c2⟩ | ⟨c1, j, c2, c3, c4⟩
          · exact absurd (by omega) (c2 _ _ ((hou e.value _ (by omega)).mpr hmem))
          · by_cases hj : j = e.value
            · subst hj; exact absurd (hhit c3 hev (by omega)) hh
            · have := c4 e.value _ ((hou e.value _ (by omega)).mpr hmem)
              exact ho.succ_far (b := j) (by omega) c2 ((hou j _ (by omega)).mp c3) l2
  · refine ⟨y, by rw [g2, List.getElem?_set_ne (Ne.symm hev)]; exact hy, ?_, ?_⟩
    · rcases g6 with ⟨hh, g6⟩ | ⟨-, g6⟩
      · exfalso
        rcases litGt_spec hu k with ⟨c1, -⟩ | ⟨c1, j, c2, c3, c4⟩
        · exact hh.1 c1
        · exact hev (hit c3 (by omega) hh).1
      · rw [g4, g6]; exact l1
    · rcases g5 with ⟨hh, g5⟩ | ⟨-, g5⟩
      · exfalso
        rcases litLt_spec hu k with ⟨c1, -⟩ | ⟨c1, j, c2, c3, c4⟩
        · exact hh.1 c1
        · exact hev (hit c3 (by omega) hh).1
      · rw [g4, g5]; exact l2

theorem TI.changeWf {v : Nat} {vs' : VarState} (h : TI W) (hw : vs'.WF) : ∀ (w : Nat) (x : VarState), (W.vars.set v vs')[w]? = some x → x.WF := by
  intro w x hx
  rw [List.getElem?_set] at hx
  split_ifs at hx
  · injection hx with hx; subst hx; exact hw
  · exact h.wf w x hx

theorem TI.changeMem {v : Nat} {vs vs' u : VarState} {k lit : Int} (h : TI W) (hv : W.vars[v]? = some vs) (ho : OffVal vs vs' k) {i : Nat} {e' : LitmapEntry}
    (hm : (linkP u lit k W.litmap)[i]? = some e') (hp : e'.prev ≠ 0) :
    (e'.var = v ∧ e'.value = k ∧ (k, litAt i e'.sign) ∈ vs.with) ∨
      ∀ x, (W.vars.set v vs')[e'.var]? = some x → (e'.value, litAt i e'.sign) ∈ x.with := by
  obtain ⟨e, g1, g2, g3, g4, -⟩ := linkP_get hm
  have hpe : e.prev ≠ 0 := (linkP_valid hm g1).2.2.2.mp hp
  have hmem := h.mem i e g1 hpe
  rw [g2, g3, g4]
  by_cases hev : e.var = v
  · have hlen : v < W.vars.length := (List.getElem?_eq_some_iff.mp hv).1
    have h1 := hmem vs (by rw [hev]; exact hv)
    by_cases hek : e.value = k
    · left; exact ⟨hev, hek, by rw [← hek]; exact h1⟩
    · right
      intro x hx
      rw [hev, List.getElem?_set_self hlen] at hx
      injection hx with hx; subst hx
      exact (ho _ _ hek).mpr h1
  · right
    intro x hx
    rw [List.getElem?_set_ne (Ne.symm hev)] at hx
    exact hmem x hx

theorem TI.changeOwn {v : Nat} {vs vs' u : VarState} {k lit : Int} (h : TI W) (hv : W.vars[v]? = some vs) (ho : OffVal vs vs' k)
    {w : Nat} {x : VarState} {a l : Int} (hx : (W.vars.set v vs')[w]? = some x) (hm : (a, l) ∈ x.with) (hl : l.natAbs ≠ 1) :
    (w = v ∧ a = k ∧ (k, l) ∈ vs'.with) ∨ (¬ (w = v ∧ a = k) ∧ ∃ e', (linkP u lit k W.litmap)[mapOffset l]? = some e' ∧ e'.prev ≠ 0 ∧ e'.var = w ∧ e'.value = a ∧
      e'.sign = LitmapEntry.getSign l) := by
  have fin : ∀ y, W.vars[w]? = some y → (a, l) ∈ y.with → ∃ e', (linkP u lit k W.litmap)[mapOffset l]? = some e' ∧ e'.prev ≠ 0 ∧ e'.var = w ∧ e'.value = a ∧
      e'.sign = LitmapEntry.getSign l := by
    intro y hy hal
    obtain ⟨e, k1, k2, k3, k4, k5⟩ := h.own w y a l hy hal hl
    obtain ⟨e', g1, g2, g3, g4, g5⟩ := linkP_some (vs := u) (lit := lit) (k := k) k1
    exact ⟨e', g1, g5.mpr k2, g2.trans k3, g4.trans k4, g3.trans k5⟩
  by_cases hw : w = v
  · subst hw
    have hlen : w < W.vars.length := (List.getElem?_eq_some_iff.mp hv).1
    rw [List.getElem?_set_self hlen] at hx
    injection hx with hx; subst hx
    by_cases ha : a = k
    · subst ha; exact Or.inl ⟨rfl, rfl, hm⟩
    · exact Or.inr ⟨fun h => ha h.2, fin vs hv ((ho a l ha).mp hm)⟩
  · rw [List.getElem?_set_ne (Ne.symm hw)] at hx
    exact Or.inr ⟨fun h => hw h.1, fin x hx hm⟩

/-- The value gets a fact as literal, or a fact is removed. -/
theorem TI.fact {v : Nat} {vs vs' u : VarState} {k lit : Int} (h : TI W) (hv : W.vars[v]? = some vs) (hw : vs'.WF) (hu : u.WF)
    (ho : OffVal vs vs' k) (hou : OffVal vs u k) (hk : AtVal vs' k lit) (hl : lit.natAbs ≤ 1) (hold : ∀ l, (k, l) ∈ vs.with → l.natAbs = 1) :
    TI { W with vars := W.vars.set v vs', litmap := linkP u lit k W.litmap } := by
  refine ⟨h.changeWf hw, h.pos, by dsimp only; rw [linkP_length]; exact h.small, fun i e hm hp => h.relink hv hu ho hou hk hm hp, ?_, ?_⟩
  · intro i e hm hp
    rcases h.changeMem hv ho hm hp with ⟨-, -, h3⟩ | h1
    · exfalso
      have h4 := hold _ h3
      have h5 := (h.relink hv hu ho hou hk hm hp).1
      unfold litAt at h4; split_ifs at h4 <;> omega
    · exact h1
  · intro w x a l hx hm hl1
    rcases h.changeOwn (u := u) (lit := lit) hv ho hx hm hl1 with ⟨-, -, h3⟩ | ⟨-, h1⟩
    · exfalso
      by_cases h0 : lit = 0
      · exact hk.2 h0 l h3
      · have := with_unique hw h3 (hk.1 h0)
        subst this; omega
    · exact h1

/-- An order literal is replaced by a fact or removed. -/
theorem TI.retire {v : Nat} {vs vs' u : VarState} {k lit old : Int} {e0 : LitmapEntry} (h : TI W) (hv : W.vars[v]? = some vs) (hw : vs'.WF) (hu : u.WF)
    (ho : OffVal vs vs' k) (hou : OffVal vs u k) (hk : AtVal vs' k lit) (hl : lit.natAbs ≤ 1) (hold : (k, old) ∈ vs.with)
    (h0 : e0.prev = 0) (hown : ∃ e, W.litmap[mapOffset old]? = some e ∧ e.var = v ∧ e.value = k) :
    TI { W with vars := W.vars.set v vs', litmap := (linkP u lit k W.litmap).set (mapOffset old) e0 } := by
  have get : ∀ {i : Nat} {e : LitmapEntry}, ((linkP u lit k W.litmap).set (mapOffset old) e0)[i]? = some e → e.prev ≠ 0 →
      mapOffset old ≠ i ∧ (linkP u lit k W.litmap)[i]? = some e := by
    intro i e hm hp
    rw [List.getElem?_set] at hm
    split_ifs at hm with h1
    · injection hm with hm; subst hm; exact absurd h0 hp
    · exact ⟨h1, hm⟩
  refine ⟨h.changeWf hw, h.pos, by dsimp only; rw [List.length_set, linkP_length]; exact h.small, ?_, ?_, ?_⟩
  · intro i e hm hp
    exact h.relink hv hu ho hou hk (get hm hp).2 hp
  · intro i e hm hp
    obtain ⟨hi, hm⟩ := get hm hp
    rcases h.changeMem hv ho hm hp with ⟨-, -, h3⟩ | h1
    · exfalso
      have := with_unique (h.wf v vs hv) h3 hold
      apply hi
      rw [← this, mapOffset_litAt]
    · exact h1
  · intro w x a l hx hm hl1
    rcases h.changeOwn (u := u) (lit := lit) hv ho hx hm hl1 with ⟨-, -, h3⟩ | ⟨hne, e, k1, k2, k3, k4, k5⟩
    · exfalso
      by_cases h0 : lit = 0
      · exact hk.2 h0 l h3
      · have := with_unique hw h3 (hk.1 h0)
        subst this; omega
    · refine ⟨e, ?_, k2, k3, k4, k5⟩
      dsimp only
      rw [List.getElem?_set_ne]
      · exact k1
      · intro he
        obtain ⟨e1, j1, j2, j3⟩ := hown
        rw [he] at j1
        obtain ⟨q1, q2, q3, -⟩ := linkP_valid k1 j1
        exact hne ⟨by rw [← k3, q1, j2], by rw [← k4, q3, j3]⟩

theorem growTo_get {n i : Nat} {m : List LitmapEntry} {e : LitmapEntry} (h : (growTo n m)[i]? = some e) (hp : e.prev ≠ 0) : m[i]? = some e := by
  unfold growTo at h
  rw [List.getElem?_append] at h
  split_ifs at h with h1
  · exact h
  · rw [List.getElem?_replicate] at h
    split_ifs at h
    injection h with h
    subst h
    exact absurd rfl hp

theorem growTo_length {n : Nat} {m : List LitmapEntry} : (growTo n m).length = max m.length n := by
  unfold growTo
  rw [List.length_append, List.length_replicate]; omega

theorem growTo_some {n i : Nat} {m : List LitmapEntry} {e : LitmapEntry} (h : m[i]? = some e) : (growTo n m)[i]? = some e := by
  unfold growTo
  rw [List.getElem?_append_left (List.getElem?_eq_some_iff.mp h).1]
  exact h

theorem TI.grow {n : Nat} {k : Int} (h : TI W) (hk : W.nextLit ≤ k) (hn : (n : Int) < k) : TI { W with litmap := growTo n W.litmap, nextLit := k } := by
  refine ⟨h.wf, by have := h.pos; dsimp only; omega, ?_, ?_, ?_, ?_⟩
  · dsimp only
    rw [growTo_length]
    have := h.small
    omega
  · exact fun i e hm hp => h.link i e (growTo_get hm hp) hp
  · exact fun i e hm hp => h.mem i e (growTo_get hm hp) hp
  · intro v vs a l hv hm hl
    obtain ⟨e, h1, h2⟩ := h.own v vs a l hv hm hl
    exact ⟨e, growTo_some h1, h2⟩

/-- A new order literal. -/
theorem TI.new {v : Nat} {vs vs' u : VarState} {k l : Int} (h : TI W) (hv : W.vars[v]? = some vs) (hw : vs'.WF) (hu : u.WF)
    (ho : OffVal vs vs' k) (hou : OffVal vs u k) (hk : (k, l) ∈ vs'.with) (hnew : ∀ l, (k, l) ∉ vs.with) (hl : 1 < l.natAbs)
    (hlen : mapOffset l < W.litmap.length)
    (hfree : ∀ e, W.litmap[mapOffset l]? = some e → e.prev = 0) :
    TI { W with
      vars := W.vars.set v vs'
      litmap := (linkP u l k W.litmap).set (mapOffset l) ⟨v, LitmapEntry.getSign l, k, u.litPrev k, u.litSucc k⟩ } := by
  have l0 : l ≠ 0 := by omega
  have hat : AtVal vs' k l := ⟨fun _ => hk, fun h => absurd h l0⟩
  have hvlen : v < W.vars.length := (List.getElem?_eq_some_iff.mp hv).1
  have get : ∀ {i : Nat} {e : LitmapEntry},
      ((linkP u l k W.litmap).set (mapOffset l) ⟨v, LitmapEntry.getSign l, k, u.litPrev k, u.litSucc k⟩)[i]? = some e →
      (mapOffset l = i ∧ e = ⟨v, LitmapEntry.getSign l, k, u.litPrev k, u.litSucc k⟩) ∨ (mapOffset l ≠ i ∧ (linkP u l k W.litmap)[i]? = some e) := by
    intro i e hm
    rw [List.getElem?_set] at hm
    split_ifs at hm with h1
    · injection hm with hm; exact Or.inl ⟨h1, hm.symm⟩
    · exact Or.inr ⟨h1, hm⟩
  refine ⟨h.changeWf hw, h.pos, by dsimp only; rw [List.length_set, linkP_length]; exact h.small, ?_, ?_, ?_⟩
  · intro i e hm hp
    rcases get hm with ⟨rfl, rfl⟩ | ⟨-, hm⟩
    · refine ⟨by unfold mapOffset; omega, vs', List.getElem?_set_self hvlen, ?_, ?_⟩
      · exact (hou.symm.trans ho).prev (le_refl _) (litPrev_is hu k)
      · exact (hou.symm.trans ho).succ (le_refl _) (litSucc_is hu k)
    · exact h.relink hv hu ho hou hat hm hp
  · intro i e hm hp
    rcases get hm with ⟨rfl, rfl⟩ | ⟨hi, hm⟩
    · intro x hx
      dsimp only at hx ⊢
      rw [List.getElem?_set_self hvlen] at hx
      injection hx with hx; subst hx
      rw [litAt_offset l0]; exact hk
    · rcases h.changeMem hv ho hm hp with ⟨-, -, h3⟩ | h1
      · exact absurd h3 (hnew _)
      · exact h1
  · intro w x a l' hx hm hl1
    rcases h.changeOwn (u := u) (lit := l) hv ho hx hm hl1 with ⟨rfl, rfl, h3⟩ | ⟨hne, e, k1, k2, k3, k4, k5⟩
    · have := with_unique hw h3 hk
      subst this
      refine ⟨_, List.getElem?_set_self (by rw [linkP_length]; exact hlen), litPrev_ne, rfl, rfl, rfl⟩
    · refine ⟨e, ?_, k2, k3, k4, k5⟩
      dsimp only
      rw [List.getElem?_set_ne]
      · exact k1
      · intro he
        obtain ⟨e1, q1, -⟩ := linkP_get k1
        have := hfree e1 (by rw [he]; exact q1)
        exact (linkP_valid k1 q1).2.2.2.mp k2 this

/-- The state only matters through tables, the map from literals and the number of literals. -/
theorem TI.other (h : TI W) (h1 : W'.vars = W.vars) (h2 : W'.litmap = W.litmap) (h3 : W'.nextLit = W.nextLit) : TI W' := by
  refine ⟨?_, ?_, ?_, ?_, ?_, ?_⟩
  · unfold AllWF; rw [h1]; exact h.wf
  · rw [h3]; exact h.pos
  · rw [h2, h3]; exact h.small
  · rw [h1, h2]; exact h.link
  · rw [h1, h2]; exact h.mem
  · rw [h1, h2]; exact h.own

theorem TI.sameTab {v : Nat} {vs vs' : VarState} (h : TI W) (hv : W.vars[v]? = some vs) (hw : vs'.WF) (hm : ∀ a b, (a, b) ∈ vs'.with ↔ (a, b) ∈ vs.with) :
    TI { W with vars := W.vars.set v vs' } := by
  have hlen : v < W.vars.length := (List.getElem?_eq_some_iff.mp hv).1
  have ho : ∀ k, OffVal vs vs' k := fun k a b _ => hm a b
  refine ⟨h.changeWf hw, h.pos, h.small, ?_, ?_, ?_⟩
  · intro i e he hp
    obtain ⟨h1, x, h2, h3, h4⟩ := h.link i e he hp
    refine ⟨h1, ?_⟩
    by_cases hev : e.var = v
    · rw [hev] at h2 ⊢
      rw [hv] at h2; injection h2 with h2; subst h2
      exact ⟨vs', List.getElem?_set_self hlen, (ho _).prev (le_refl _) h3, (ho _).succ (le_refl _) h4⟩
    · exact ⟨x, by dsimp only; rw [List.getElem?_set_ne (Ne.symm hev)]; exact h2, h3, h4⟩
  · intro i e he hp x hx
    dsimp only at hx
    by_cases hev : e.var = v
    · rw [hev, List.getElem?_set_self hlen] at hx
      injection hx with hx; subst hx
      exact (hm _ _).mpr (h.mem i e he hp vs (by rw [hev]; exact hv))
    · rw [List.getElem?_set_ne (Ne.symm hev)] at hx
      exact h.mem i e he hp x hx
  · intro w x a l hx hm' hl
    dsimp only at hx
    by_cases hw : w = v
    · subst hw
      rw [List.getElem?_set_self hlen] at hx
      injection hx with hx; subst hx
      exact h.own w vs a l hv ((hm a l).mp hm') hl
    · rw [List.getElem?_set_ne (Ne.symm hw)] at hx
      exact h.own w x a l hx hm' hl

theorem GotLit.ti {var : Nat} {value l : Int} (h : GotLit W var value l W') (ht : TI W) : TI W' := by
  cases h with
  | low => exact ht
  | high => exact ht
  | old vs vs' l hv _ _ _ hs => exact ht.sameTab hv hs.wf hs.mem
  | new vs vs' l hv _ _ hno hs hl =>
    have hp := ht.pos
    have h2 : l.natAbs = W.nextLit.natAbs := by rcases hl with rfl | rfl <;> simp
    have hsm := ht.small
    have t1 : TI { W with litmap := growTo (mapOffset l + 1) W.litmap, nextLit := W.nextLit + 1 } := ht.grow (by omega) (by unfold mapOffset; omega)
    have hmem : (value, l) ∈ vs'.with := (hs.mem value l).mpr (by rw [if_pos rfl])
    have t2 := t1.new (u := vs') (l := l) hv hs.wf hs.wf hs.off hs.off hmem hno (by omega)
      (by dsimp only; rw [growTo_length]; omega) (by
        intro e he
        by_contra hp
        have h3 := (List.getElem?_eq_some_iff.mp (growTo_get he hp)).1
        unfold mapOffset at h3
        omega)
    exact t2.other rfl rfl rfl

theorem UpdLit.ti {var : Nat} {value l : Int} {t : Bool} (h : UpdLit W var value t l W') (ht : TI W) : TI W' := by
  cases h with
  | got l W' hg => exact hg.ti ht
  | fact vs vs' hv _ _ hno hs =>
    have hmem : (value, if t then TRUE_LIT else -TRUE_LIT) ∈ vs'.with := (hs.mem value _).mpr (by rw [if_pos rfl])
    have h1 : (if t then TRUE_LIT else -TRUE_LIT : Int).natAbs = 1 := by cases t <;> rfl
    have := ht.fact (u := vs') (lit := if t then TRUE_LIT else -TRUE_LIT) hv hs.wf hs.wf hs.off hs.off
      ⟨fun _ => hmem, fun h0 => by rw [h0] at h1; cases h1⟩ (by omega) (fun l hl => absurd hl (hno l))
    exact this.other rfl rfl rfl

end Clingcon
