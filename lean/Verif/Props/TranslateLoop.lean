import Verif.Spec.TranslateLoop
import Verif.Proof.TranslateFrame
import Verif.Proof.Base
import Verif.Props.Translate

/-! C38: translating constraints removes exactly those reported as removable. -/
namespace Clingcon.Props
open Clingcon Clingcon.Spec

variable {cc : CC} {tc : TConf} {fuel : Nat}

theorem set_mid {α : Type} (A : List α) (a b : α) (B : List α) (n : Nat) (h : n = A.length) : (A ++ a :: B).set n b = A ++ b :: B := by
  subst h; rw [List.set_append_right _ _ (Nat.le_refl _)]; simp

theorem get_mid {α : Type} (A : List α) (a : α) (B : List α) (n : Nat) (h : n = A.length) : (A ++ a :: B)[n]? = some a := by
  subst h; simp

theorem swap_mid (K R Q : List TCon) (r t : TCon) (i j : Nat) (hi : i = K.length + (R.length + 1)) (hj : j = K.length) :
    swapAt (K ++ r :: (R ++ t :: Q)) i j = K ++ t :: (R ++ r :: Q) := by
  have h1 : (K ++ r :: (R ++ t :: Q))[j]? = some r := get_mid K r _ j hj
  have e : K ++ r :: (R ++ t :: Q) = (K ++ r :: R) ++ t :: Q := by simp
  have h2 : (K ++ r :: (R ++ t :: Q))[i]? = some t := by rw [e]; exact get_mid _ t _ i (by simp; omega)
  unfold swapAt
  rw [h1, h2]
  simp only
  rw [e, set_mid (K ++ r :: R) t r Q i (by simp; omega), show (K ++ r :: R) ++ r :: Q = K ++ r :: (R ++ r :: Q) by simp, set_mid K r t _ j hj]

/-- The loop over the vector, where `K` are the constraints kept, `R` the ones to be removed and `Q` the ones not
yet processed. -/
theorem translateLoop_spec : ∀ (k idx jdx : Nat) (K R Q : List TCon) {W W' : World} {v' : List TCon} {j' : Nat},
    jdx = K.length → idx = K.length + R.length → translateLoop cc tc fuel k idx jdx (K ++ (R ++ Q)) W = .ok (some (v', j'), W') →
    ∃ tr, Translated cc tc fuel Q W tr W' ∧ v'.take j' = K ++ keptOf tr ∧ List.Perm (v'.drop j') (R ++ removedOf tr) := by
  intro k
  induction k with
  | zero =>
    intro idx jdx K R Q W W' v' j' hj hi h
    unfold translateLoop at h
    by_cases hq : idx < (K ++ (R ++ Q)).length
    · rw [if_pos hq] at h; cases h
    · rw [if_neg hq] at h
      injection h with h; injection h with h hW; injection h with h; injection h with h1 h2
      subst h1; subst h2; subst hW
      have hQ : Q = [] := by simp only [List.length_append] at hq; exact List.length_eq_zero_iff.mp (by omega)
      subst hQ
      refine ⟨[], .nil _, ?_, ?_⟩
      · simp [hj, keptOf]
      · simp [hj, removedOf]
  | succ k ih =>
    intro idx jdx K R Q W W' v' j' hj hi h
    unfold translateLoop at h
    cases Q with
    | nil =>
      have hn : (K ++ (R ++ []))[idx]? = none := by simp [hi]
      rw [hn] at h
      injection h with h; injection h with h hW; injection h with h; injection h with h1 h2
      subst h1; subst h2; subst hW
      refine ⟨[], .nil _, ?_, ?_⟩
      · simp [hj, keptOf]
      · simp [hj, removedOf]
    | cons t Q =>
      have e0 : K ++ (R ++ t :: Q) = (K ++ R) ++ t :: Q := by simp
      have hs : (K ++ (R ++ t :: Q))[idx]? = some t := by rw [e0]; exact get_mid _ t Q idx (by simp [hi])
      rw [hs] at h
      simp only at h
      obtain ⟨n, W1, h1, h⟩ := bind_iff.mp h
      obtain ⟨r, W2, h2, h⟩ := bind_iff.mp h
      obtain ⟨⟨ok, b⟩, added⟩ := r
      have ev : (K ++ (R ++ t :: Q)).set idx (.old n) ++ added.map TCon.new = K ++ (R ++ .old n :: (Q ++ added.map .new)) := by
        rw [e0, set_mid _ t _ Q idx (by simp [hi])]; simp
      cases ok with
      | false => injection h with h; injection h with h; cases h
      | true =>
        simp only [Bool.not_true, Bool.false_eq_true, if_false] at h
        rw [ev] at h
        cases b with
        | true =>
          simp only [if_true] at h
          obtain ⟨tr, t1, t2, t3⟩ := ih (idx + 1) jdx K (R ++ [.old n]) (Q ++ added.map .new) hj (by simp [hi]; omega) (by simpa using h)
          exact ⟨(n, true) :: tr, .cons h1 h2 t1, by simpa [keptOf] using t2, by simpa [removedOf] using t3⟩
        | false =>
          simp only [Bool.false_eq_true, if_false] at h
          cases R with
          | nil =>
            rw [if_neg (by simp [hi, hj])] at h
            obtain ⟨tr, t1, t2, t3⟩ := ih (idx + 1) (jdx + 1) (K ++ [.old n]) [] (Q ++ added.map .new) (by simp [hj]) (by simp [hi]) (by simpa using h)
            exact ⟨(n, false) :: tr, .cons h1 h2 t1, by simpa [keptOf] using t2, by simpa [removedOf] using t3⟩
          | cons r R =>
            rw [if_pos (by simp [hi, hj])] at h
            rw [show K ++ ((r :: R) ++ .old n :: (Q ++ added.map .new)) = K ++ r :: (R ++ .old n :: (Q ++ added.map .new)) from rfl,
              swap_mid K R _ r (.old n) idx jdx (by simp [hi]) hj] at h
            obtain ⟨tr, t1, t2, t3⟩ := ih (idx + 1) (jdx + 1) (K ++ [.old n]) (R ++ [r]) (Q ++ added.map .new) (by simp [hj]) (by simp [hi]; omega) (by simpa using h)
            refine ⟨(n, false) :: tr, .cons h1 h2 t1, by simpa [keptOf] using t2, ?_⟩
            have hp : List.Perm (R ++ [r] ++ removedOf tr) (r :: R ++ removedOf ((n, false) :: tr)) := by
              simp only [removedOf, List.filter_cons, Bool.false_eq_true, if_false]
              rw [List.append_assoc, List.cons_append]
              exact List.perm_middle
            exact t3.trans hp

theorem states_add {c : Constr} {W W1 : World} {n : Nat} (h : addConstraint c W = .ok (n, W1)) :
    n = (states W).length ∧ states W1 = states W ++ [(c, true)] := by
  unfold addConstraint at h
  obtain ⟨st, Wa, h1, h2⟩ := bind_iff.mp h
  obtain ⟨rfl, s1, s2, -, -, -⟩ := initState_eff h1
  simp only [smok] at h2
  obtain ⟨W2, W3, ⟨rfl, rfl⟩, _, W4, rfl, _, W5, h5, _, W6, rfl, rfl, rfl⟩ := h2
  obtain ⟨e1, -, -, -⟩ := addVarWatches_eff h5
  have hcs : W5.book.cs = W3.book.cs ++ [st] := by rw [e1]
  refine ⟨by simp [states], ?_⟩
  have hm := markTodo_eff W5.book W3.book.cs.length
  have hg : (W5.book.markTodo W3.book.cs.length).cs.map (fun c => (c.con, c.alive)) = W5.book.cs.map (fun c => (c.con, c.alive)) := by
    apply List.ext_getElem?
    intro m
    rw [List.getElem?_map, List.getElem?_map]
    cases hc : W5.book.cs[m]? with
    | none =>
      have : (W5.book.markTodo W3.book.cs.length).cs[m]? = none := by
        rw [List.getElem?_eq_none_iff] at hc ⊢; rw [hm.len]; exact hc
      rw [this]
    | some x =>
      obtain ⟨y, hy, f, s⟩ := hm.cs m x hc
      rw [hy]; simp [f.alive, s.con]
  show (W5.book.markTodo W3.book.cs.length).cs.map (fun c => (c.con, c.alive)) = _
  rw [hg, hcs, List.map_append]
  simp [states, s1, s2]

theorem states_one {W W' : World} {n : Nat} {r : (Bool × Bool) × List Constr} (h : translateOne cc tc fuel n W = .ok (r, W')) : states W' = states W := by
  have : CsIs W.book.cs (frame W') := (keep_translateOne (cs := W.book.cs)).keep _ _ _ h rfl
  unfold states
  rw [show W'.book.cs = W.book.cs from this]

/-- The numbers of the constraints that already have a state. -/
def oldOf (q : List TCon) : List Nat := q.filterMap (fun t => match t with | .old n => some n | .new _ => none)

theorem mem_oldOf {q : List TCon} {n : Nat} : n ∈ oldOf q ↔ TCon.old n ∈ q := by
  unfold oldOf
  rw [List.mem_filterMap]
  constructor
  · rintro ⟨t, ht, h⟩
    cases t with
    | old m => injection h with h; subst h; exact ht
    | new c => cases h
  · exact fun h => ⟨_, h, rfl⟩

theorem oldOf_new (q : List TCon) (as : List Constr) : oldOf (q ++ as.map .new) = oldOf q := by
  unfold oldOf
  rw [List.filterMap_append]
  suffices h : List.filterMap (fun t : TCon => match t with | .old n => some n | .new _ => none) (as.map .new) = [] by rw [h, List.append_nil]
  induction as with
  | nil => rfl
  | cons a as ih => simp only [List.map_cons]; exact ih

/-- The constraints processed are the given ones and the ones added, each once. -/
theorem translated_numbers {q : List TCon} {W W' : World} {tr : List (Nat × Bool)} (h : Translated cc tc fuel q W tr W') :
    (oldOf q).Nodup → (∀ n ∈ oldOf q, n < (states W).length) →
    ∃ new : List Constr, states W' = states W ++ new.map (fun c => (c, true)) ∧ (tr.map Prod.fst).Nodup ∧
      (∀ n, n ∈ tr.map Prod.fst ↔ n ∈ oldOf q ∨ ((states W).length ≤ n ∧ n < (states W').length)) := by
  induction h with
  | nil W =>
    intro _ _
    exact ⟨[], by simp, by simp, fun n => by simp [oldOf]⟩
  | @cons t q W n W1 b added W2 tr W3 h1 h2 _ ih =>
    intro hd hl
    have e2 := states_one h2
    cases t with
    | old m =>
      obtain ⟨rfl, rfl⟩ := pure_iff.mp h1
      have ed : oldOf (.old n :: q) = n :: oldOf q := rfl
      rw [ed] at hd hl
      obtain ⟨new, i1, i2, i3⟩ := ih (by rw [oldOf_new]; exact (List.nodup_cons.mp hd).2)
        (by rw [oldOf_new, e2]; exact fun k hk => hl k (List.mem_cons_of_mem _ hk))
      rw [e2] at i1
      rw [e2, oldOf_new] at i3
      refine ⟨new, i1, ?_, ?_⟩
      · rw [List.map_cons, List.nodup_cons]
        refine ⟨fun hm => ?_, i2⟩
        rcases (i3 n).mp hm with hm | hm
        · exact (List.nodup_cons.mp hd).1 hm
        · have := hl n (List.mem_cons_self ..); omega
      · intro k
        rw [List.map_cons, List.mem_cons, i3 k, ed, List.mem_cons]
        tauto
    | new c =>
      obtain ⟨hn, e1⟩ := states_add h1
      have ed : oldOf (.new c :: q) = oldOf q := rfl
      rw [ed] at hd hl
      have ln : (states W1).length = (states W).length + 1 := by rw [e1]; simp
      obtain ⟨new, i1, i2, i3⟩ := ih (by rw [oldOf_new]; exact hd)
        (by rw [oldOf_new, e2, ln]; exact fun k hk => Nat.lt_succ_of_lt (hl k hk))
      rw [e2] at i1
      rw [e2, oldOf_new, ln] at i3
      have l3 : (states W).length + 1 ≤ (states W3).length := by rw [i1, e1]; simp
      refine ⟨c :: new, by rw [i1, e1]; simp, ?_, ?_⟩
      · rw [List.map_cons, List.nodup_cons]
        refine ⟨fun hm => ?_, i2⟩
        rcases (i3 n).mp hm with hm | hm
        · have := hl n hm; omega
        · omega
      · intro k
        rw [List.map_cons, List.mem_cons, i3 k, ed]
        constructor
        · rintro (h | h | h)
          · right; simp only at h; omega
          · exact Or.inl h
          · right; omega
        · rintro (h | h)
          · exact Or.inr (Or.inl h)
          · by_cases hk : k = n
            · exact Or.inl hk
            · right; right; omega

theorem activate_get {cs : List CState} {ns : List Nat} {m : Nat} : (Book.activate cs ns)[m]? = cs[m]?.map (fun c => if m ∈ ns then { c with inactive := 0 } else c) := by
  unfold Book.activate
  exact foldl_modify (f := fun c => { c with inactive := 0 }) (fun _ => rfl)

theorem states_remove {W : World} {rem : Nat → Bool} {n : Nat} : (states { W with book := W.book.removeConstraints rem })[n]? =
    (states W)[n]?.map (fun p => (p.1, p.2 && !rem n)) := by
  unfold states Book.removeConstraints
  simp only [List.getElem?_map, List.getElem?_zipIdx, unmarkTodo_get, activate_get, Option.map_map, Nat.zero_add]
  congr 1
  funext c
  simp only [Function.comp]
  cases rem n <;> split_ifs <;> simp_all

theorem mem_removedOf {tr : List (Nat × Bool)} {n : Nat} : TCon.old n ∈ removedOf tr ↔ (n, true) ∈ tr := by
  unfold removedOf
  simp only [List.mem_map, List.mem_filter]
  constructor
  · rintro ⟨⟨a, b⟩, ⟨h1, h2⟩, h3⟩
    injection h3 with h3; subst h3; simp only at h2; subst h2; exact h1
  · exact fun h => ⟨_, ⟨h, rfl⟩, rfl⟩

theorem mem_keptOf {tr : List (Nat × Bool)} {n : Nat} : TCon.old n ∈ keptOf tr ↔ (n, false) ∈ tr := by
  unfold keptOf
  simp only [List.mem_map, List.mem_filter]
  constructor
  · rintro ⟨⟨a, b⟩, ⟨h1, h2⟩, h3⟩
    injection h3 with h3; subst h3; simp only [Bool.not_eq_true'] at h2; subst h2; exact h1
  · exact fun h => ⟨_, ⟨h, rfl⟩, rfl⟩

theorem boundsOf_frame {W W' : World} (h : frame W' = frame W) : boundsOf W' = boundsOf W := by
  have h1 : W'.vars.map VarState.bounds = W.vars.map VarState.bounds := congrArg Prod.fst h
  have h2 := congrArg (List.map (fun x : VarState => (x.lower, x.upper))) h1
  simp only [List.map_map] at h2
  exact h2

/-- If the translation succeeds, then all constraints of the vector and all constraints added to it by translations
are processed in order; the vector finally contains exactly the ones not reported as removable, the states of the
others are no longer in use, and they are in none of the watch lists and queues. -/
theorem C38_removed {steps : Nat} {v kept : List TCon} {W W' : World} (h : solverTranslate cc tc fuel steps v W = .ok ((true, kept), W')) :
    ∃ tr W1, Translated cc tc fuel v W tr W1 ∧ kept = keptOf tr ∧ boundsOf W' = boundsOf W1 ∧
      (∀ n, (states W')[n]? = (states W1)[n]?.map (fun p => (p.1, p.2 && !decide ((n, true) ∈ tr)))) ∧
      W'.book.watches = W1.book.watches.map (fun ws => ws.filter (fun w => !decide ((w.2, true) ∈ tr))) ∧
      W'.book.todo = W1.book.todo.filter (fun n => !decide ((n, true) ∈ tr)) ∧
      W'.book.inactive = W1.book.inactive.filter (fun n => !decide ((n, true) ∈ tr)) := by
  unfold solverTranslate at h
  obtain ⟨r, W1, h1, h2⟩ := bind_iff.mp h
  cases r with
  | none => injection h2 with h2; injection h2 with h2; injection h2 with h2; cases h2
  | some p =>
    obtain ⟨v', j'⟩ := p
    obtain ⟨tr, t1, t2, t3⟩ := translateLoop_spec steps 0 0 [] [] v rfl rfl (by simpa using h1)
    simp only [List.nil_append] at t2 t3
    simp only at h2
    obtain ⟨u, W2, h3, h4⟩ := bind_iff.mp h2
    have hrem : ∀ n, inRemoved (v'.drop j') n = decide ((n, true) ∈ tr) := by
      intro n
      unfold inRemoved
      rw [Bool.eq_iff_iff, List.contains_iff_mem, t3.mem_iff, mem_removedOf, decide_eq_true_iff]
    have hfun : inRemoved (v'.drop j') = fun n => decide ((n, true) ∈ tr) := funext hrem
    have key : boundsOf W2 = boundsOf W1 ∧ (∀ n, (states W2)[n]? = (states W1)[n]?.map (fun p => (p.1, p.2 && !decide ((n, true) ∈ tr)))) ∧
      W2.book.watches = W1.book.watches.map (fun ws => ws.filter (fun w => !decide ((w.2, true) ∈ tr))) ∧
      W2.book.todo = W1.book.todo.filter (fun n => !decide ((n, true) ∈ tr)) ∧
      W2.book.inactive = W1.book.inactive.filter (fun n => !decide ((n, true) ∈ tr)) := by
      by_cases hj : j' < v'.length
      · simp only [whenS, hj, decide_true, if_true] at h3
        have h3 := modify_iff.mp h3
        rw [hfun] at h3
        subst h3
        exact ⟨rfl, fun n => states_remove, rfl, rfl, rfl⟩
      · simp only [whenS, hj, decide_false, Bool.false_eq_true, if_false] at h3
        obtain ⟨-, rfl⟩ := pure_iff.mp h3
        have hno : ∀ n, decide ((n, true) ∈ tr) = false := by
          intro n
          rw [← hrem, List.drop_eq_nil_of_le (by omega)]; rfl
        simp [hno]
    have hf : frame W' = frame W2 ∧ kept = v'.take j' := by
      by_cases ho : tc.orderClauses = true
      · rw [if_pos ho] at h4
        obtain ⟨Wx, W3, h5, h6⟩ := bind_iff.mp h4
        obtain ⟨rfl, rfl⟩ := get_iff.mp h5
        obtain ⟨ret, W4, h7, h8⟩ := bind_iff.mp h6
        obtain ⟨h10, rfl⟩ := pure_iff.mp h8
        have h9 := congrArg Prod.snd h10
        exact ⟨fr_allOrderClauses.fr _ _ _ h7, h9⟩
      · rw [if_neg ho] at h4
        obtain ⟨h8, rfl⟩ := pure_iff.mp h4
        have h9 := congrArg Prod.snd h8
        exact ⟨rfl, h9⟩
    obtain ⟨hf, rfl⟩ := hf
    have hb : W'.book = W2.book := congrArg Prod.snd hf
    have hv : boundsOf W' = boundsOf W2 := boundsOf_frame hf
    obtain ⟨k1, k2, k3, k4, k5⟩ := key
    refine ⟨tr, W1, t1, t2, hv.trans k1, ?_, hb ▸ k3, hb ▸ k4, hb ▸ k5⟩
    intro n
    rw [← k2 n]
    unfold states
    rw [hb]

/-- If the vector lists exactly the constraints in use, each once, then it does so after the translation, and no
constraint has become another one; constraints are only appended. -/
theorem C38_remaining {steps : Nat} {v kept : List TCon} {W W' : World} (hd : (oldOf v).Nodup) (hv : ∀ n, TCon.old n ∈ v ↔ Alive W n)
    (h : solverTranslate cc tc fuel steps v W = .ok ((true, kept), W')) :
    kept.Nodup ∧ (∀ n, TCon.old n ∈ kept ↔ Alive W' n) ∧ (∀ t ∈ kept, ∃ n, t = .old n) ∧
      ((states W).map Prod.fst) <+: ((states W').map Prod.fst) := by
  obtain ⟨tr, W1, t1, rfl, -, t3, -, -, -⟩ := C38_removed h
  have hl : ∀ n ∈ oldOf v, n < (states W).length := by
    intro n hn
    obtain ⟨c, hc⟩ := (hv n).mp (mem_oldOf.mp hn)
    exact (List.getElem?_eq_some_iff.mp hc).1
  obtain ⟨new, n1, n2, n3⟩ := translated_numbers t1 hd hl
  have uniq : ∀ n, (n, true) ∈ tr → (n, false) ∈ tr → False := by
    intro n ha hb
    have : ∀ {l : List (Nat × Bool)}, (l.map Prod.fst).Nodup → (n, true) ∈ l → (n, false) ∈ l → False := by
      intro l
      induction l with
      | nil => intro _ h; cases h
      | cons p l ih =>
        intro hd h1 h2
        rw [List.map_cons, List.nodup_cons] at hd
        rcases List.mem_cons.mp h1 with h1 | h1
        · rcases List.mem_cons.mp h2 with h2 | h2
          · rw [← h1] at h2; cases h2
          · exact hd.1 (by rw [← h1]; exact List.mem_map.mpr ⟨_, h2, rfl⟩)
        · rcases List.mem_cons.mp h2 with h2 | h2
          · exact hd.1 (by rw [← h2]; exact List.mem_map.mpr ⟨_, h1, rfl⟩)
          · exact ih hd.2 h1 h2
    exact this n2 ha hb
  refine ⟨?_, ?_, ?_, ?_⟩
  · unfold keptOf
    have : ((tr.filter (fun p => !p.2)).map Prod.fst).Nodup := n2.sublist ((List.filter_sublist).map _)
    have e : (tr.filter (fun p => !p.2)).map (fun p => TCon.old p.1) = ((tr.filter (fun p => !p.2)).map Prod.fst).map TCon.old := by rw [List.map_map]; rfl
    rw [e]
    exact this.map (fun a b h => by injection h)
  · intro n
    rw [mem_keptOf]
    unfold Alive
    rw [t3 n]
    have hin : (∃ c, (states W1)[n]? = some (c, true)) ↔ n ∈ tr.map Prod.fst := by
      rw [n3 n, mem_oldOf, hv n, n1]
      unfold Alive
      by_cases hlt : n < (states W).length
      · rw [List.getElem?_append_left hlt]
        constructor
        · exact Or.inl
        · rintro (h | h)
          · exact h
          · omega
      · rw [List.getElem?_append_right (by omega), List.getElem?_map]
        constructor
        · rintro ⟨c, hc⟩
          right
          obtain ⟨y, hy, -⟩ := Option.map_eq_some_iff.mp hc
          have := (List.getElem?_eq_some_iff.mp hy).1
          simp only [List.length_append, List.length_map]
          omega
        · rintro (⟨c, h⟩ | ⟨-, h⟩)
          · exact absurd (List.getElem?_eq_some_iff.mp h).1 hlt
          · simp only [List.length_append, List.length_map] at h
            exact ⟨new[n - (states W).length]'(by omega), by rw [List.getElem?_eq_getElem (by omega)]; rfl⟩
    constructor
    · intro hf
      obtain ⟨c, hc⟩ := hin.mpr (List.mem_map.mpr ⟨_, hf, rfl⟩)
      refine ⟨c, ?_⟩
      have : ¬ (n, true) ∈ tr := fun ht => uniq n ht hf
      rw [hc]; simp [this]
    · rintro ⟨c, hc⟩
      obtain ⟨⟨c1, a⟩, hy, he⟩ := Option.map_eq_some_iff.mp hc
      injection he with e1 e2
      simp only [Bool.and_eq_true, Bool.not_eq_true', decide_eq_false_iff_not] at e2
      obtain ⟨rfl, hnt⟩ := e2
      obtain ⟨⟨m, b⟩, hm, he⟩ := List.mem_map.mp (hin.mp ⟨c1, hy⟩)
      simp only at he
      subst he
      cases b with
      | true => exact absurd hm hnt
      | false => exact hm
  · intro t ht
    unfold keptOf at ht
    obtain ⟨p, -, rfl⟩ := List.mem_map.mp ht
    exact ⟨_, rfl⟩
  · have : (states W').map Prod.fst = (states W1).map Prod.fst := by
      apply List.ext_getElem?
      intro n
      rw [List.getElem?_map, List.getElem?_map, t3 n, Option.map_map]
      rfl
    rw [this, n1, List.map_append]
    exact List.prefix_append _ _

/-- Two linear constraints of which one is translated to a weight constraint; between them a constraint that is
not translated, and a `distinct` constraint whose translation adds constraints. -/
def mixed : World := (tryRun [.addVar 0 3, .addVar 0 2, .addConstraint (.sum 5 3 [(2, 0), (-1, 1)]), .addConstraint (.disjoint 5 [(1, 0), (1, 1)]),
  .addConstraint (.distinct 1 [([(1, 0), (1, 1)], 0), ([(1, 1)], 0)]), .addConstraint (.sum 6 2 [(1, 0), (1, 1)])] (World.init 8)).getD (World.init 8)

/-- The hypotheses are met. Constraints 0 and 3 are translated to weight constraints; constraint 2 is translated
and adds constraints 4 and 5, which are translated too. Only constraint 1 remains. -/
example : (oldOf [.old 0, .old 1, .old 2, .old 3]).Nodup ∧ (states mixed).map Prod.snd = [true, true, true, true] ∧
    (solverTranslate idle toWeights 100 100 [.old 0, .old 1, .old 2, .old 3] mixed).toOption.map (fun p => (p.1, (states p.2).map Prod.snd)) =
      some ((true, [.old 1]), [false, true, false, false, false, false]) := by
  decide +kernel

end Clingcon.Props
