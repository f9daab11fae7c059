import Verif.Proof.Translate
import Verif.Proof.TranslateSum
import Verif.Proof.IntervalSet
import Mathlib.Data.List.Count

/-! The translation of distinct constraints: domains of terms and how often values occur in them. -/
set_option linter.unusedSimpArgs false
namespace Clingcon
open Spec

variable {σ : Nat → Int} {lo up : Nat → Int} {W W' : World}

theorem IntervalSet.contains_iff {s : IntervalSet} {v : Int} (hc : Canonical s) : s.contains v = true ↔ v ∈ covered s := by
  rw [IntervalSet.mem_covered]
  unfold IntervalSet.contains
  have := IntervalSet.split_last hc (fun x => decide (x ≤ v)) (by intro x y h1 h2; simp at *; omega)
  simp only [decide_eq_true_eq, decide_eq_false_iff_not] at this
  rcases this with ⟨hn, hall⟩ | ⟨x, y, hsome, hmem, hx, hall⟩
  · rw [hn]
    simp only [Bool.false_eq_true, false_iff]
    rintro ⟨p, hp, h1, _⟩
    exact hall p hp h1
  · rw [hsome]
    simp only [decide_eq_true_eq]
    constructor
    · intro h; exact ⟨(x, y), hmem, hx, h⟩
    · rintro ⟨p, hp, h1, h2⟩
      rcases hall p hp h1 with rfl | h3
      · exact h2
      · omega

/-! ### Domains -/

theorem addShift_spec (add : Int) : ∀ (cur s : IntervalSet), Canonical s →
    Canonical (cur.foldl (fun (s : IntervalSet) p => s.add (p.1 + add) (p.2 + add)) s) ∧
      ∀ v, v ∈ covered (cur.foldl (fun (s : IntervalSet) p => s.add (p.1 + add) (p.2 + add)) s) ↔ v ∈ covered s ∨ v - add ∈ covered cur
  | [], s, h => ⟨h, fun v => by simp [covered]⟩
  | p :: cur, s, h => by
    obtain ⟨h1, h2⟩ := IntervalSet.add_spec s (p.1 + add) (p.2 + add) h
    obtain ⟨h3, h4⟩ := addShift_spec add cur _ h1
    refine ⟨h3, fun v => ?_⟩
    rw [List.foldl_cons, h4, h2, IntervalSet.covered_cons, Set.mem_union, Set.mem_union, Set.mem_Ico, Set.mem_Ico, or_assoc]
    have : (p.1 + add ≤ v ∧ v < p.2 + add) ↔ (p.1 ≤ v - add ∧ v - add < p.2) := by constructor <;> rintro ⟨a, b⟩ <;> constructor <;> omega
    rw [this]

theorem domainValues_spec (cur : IntervalSet) (step : Int) : ∀ (n : Nat) (add : Int) (s : IntervalSet), Canonical s →
    Canonical (domainValues cur step n add s) ∧
      ∀ v, v ∈ covered (domainValues cur step n add s) ↔ v ∈ covered s ∨ ∃ j : Nat, j < n ∧ v - (add + j * step) ∈ covered cur
  | 0, add, s, h => ⟨h, fun v => by simp [domainValues]⟩
  | n + 1, add, s, h => by
    obtain ⟨h1, h2⟩ := addShift_spec add cur s h
    obtain ⟨h3, h4⟩ := domainValues_spec cur step n (add + step) _ h1
    refine ⟨h3, fun v => ?_⟩
    unfold domainValues
    rw [h4, h2, or_assoc]
    refine or_congr_right ⟨?_, ?_⟩
    · rintro (h | ⟨j, hj, h⟩)
      · exact ⟨0, by omega, by simpa using h⟩
      · refine ⟨j + 1, by omega, ?_⟩
        have : add + ((j + 1 : Nat) : Int) * step = add + step + j * step := by push_cast; ring
        rw [this]; exact h
    · rintro ⟨j, hj, h⟩
      cases j with
      | zero => left; simpa using h
      | succ j =>
        refine Or.inr ⟨j, by omega, ?_⟩
        have : add + ((j + 1 : Nat) : Int) * step = add + step + j * step := by push_cast; ring
        rw [this] at h; exact h

/-- The values of the next variable are added to those so far. -/
theorem domainValues_step (s : IntervalSet) (step : Int) (n : Nat) (h : Canonical s) :
    Canonical (domainValues s step n step s) ∧
      ∀ v, v ∈ covered (domainValues s step n step s) ↔ ∃ j : Nat, j ≤ n ∧ v - j * step ∈ covered s := by
  obtain ⟨h1, h2⟩ := domainValues_spec s step n step s h
  refine ⟨h1, fun v => ?_⟩
  rw [h2]
  constructor
  · rintro (h | ⟨j, hj, h⟩)
    · exact ⟨0, by omega, by simpa using h⟩
    · refine ⟨j + 1, by omega, ?_⟩
      have : ((j + 1 : Nat) : Int) * step = step + j * step := by push_cast; ring
      rw [this]; exact h
  · rintro ⟨j, hj, h⟩
    cases j with
    | zero => left; simpa using h
    | succ j =>
      refine Or.inr ⟨j, by omega, ?_⟩
      have : ((j + 1 : Nat) : Int) * step = step + j * step := by push_cast; ring
      rw [this] at h; exact h

theorem loF_of {v : Nat} {vs : VarState} (h : W.vars[v]? = some vs) : loF (frame W) v = vs.lower ∧ upF (frame W) v = vs.upper := by
  unfold loF upF frame
  dsimp only
  rw [List.getElem?_map, h]
  exact ⟨rfl, rfl⟩

theorem reads_domainVars : ∀ {es : CoVarVec} {s : IntervalSet}, Reads (domainVars es s)
  | [], s => Reads.pure
  | (co, v) :: es, s => Reads.bind Reads.getVar (fun _ => Reads.bind Reads.assertS (fun _ => reads_domainVars))

theorem reads_termDomain {es : CoVarVec} {l : Int} : Reads (termDomain es l) := reads_domainVars

theorem reads_termDomains : ∀ {es : List (CoVarVec × Int)} {as : List (Int × Int)}, Reads (termDomains es as)
  | [], _ => Reads.pure
  | _ :: _, [] => Reads.ub
  | _ :: _, _ :: _ => Reads.bind reads_termDomain (fun _ => Reads.bind reads_termDomains (fun _ => Reads.pure))

/-- The domain contains all values of the term. -/
theorem domainVars_complete : ∀ {W : World} {es : CoVarVec} {s d : IntervalSet}, domainVars es s W = .ok (d, W') → Canonical s →
    Canonical d ∧ (∀ e ∈ es, e.2 < W.vars.length) ∧ (Within (loF (frame W)) (upF (frame W)) σ es → ∀ u ∈ covered s, u + devSum (loF (frame W)) (upF (frame W)) σ es ∈ covered d)
  | W, [], s, d, h, hs => by
    obtain ⟨rfl, rfl⟩ := pure_iff.mp h
    exact ⟨hs, by simp, fun _ u hu => by simpa [devSum] using hu⟩
  | W, (co, v) :: es, s, d, h, hs => by
    unfold domainVars at h
    obtain ⟨vs, W1, h1, h2⟩ := SM.bind_ok h
    obtain ⟨hv, rfl⟩ := getVar_iff.mp h1
    obtain ⟨u, W2, h3, h4⟩ := SM.bind_ok h2
    obtain rfl := Reads.assertS.reads _ _ _ h3
    obtain ⟨c1, c2⟩ := domainValues_step s co.natAbs (vs.upper - vs.lower).toNat hs
    obtain ⟨g1, g2, g3⟩ := domainVars_complete h4 c1
    obtain ⟨l1, l2⟩ := loF_of hv
    refine ⟨g1, ?_, fun hw u hu => ?_⟩
    · intro e he
      rcases List.mem_cons.mp he with rfl | he
      · exact (List.getElem?_eq_some_iff.mp hv).1
      · exact g2 e he
    have hb := hw (co, v) (List.mem_cons_self ..)
    dsimp only at hb
    rw [l1, l2] at hb
    have hd : devSum (loF (frame W2)) (upF (frame W2)) σ ((co, v) :: es) = devOf (loF (frame W2)) (upF (frame W2)) σ (co, v) + devSum (loF (frame W2)) (upF (frame W2)) σ es := by
      unfold devSum; rw [List.map_cons, List.sum_cons]
    rw [hd, ← add_assoc]
    refine g3 (fun e he => hw e (List.mem_cons_of_mem _ he)) _ ?_
    rw [c2]
    unfold devOf
    dsimp only
    rw [l1, l2]
    split_ifs with hc
    · refine ⟨(σ v - vs.lower).toNat, by omega, ?_⟩
      have : u + co * (σ v - vs.lower) - ((σ v - vs.lower).toNat : Int) * (co.natAbs : Int) = u := by
        rw [Int.toNat_of_nonneg (by omega), Int.natCast_natAbs, abs_of_pos hc]; ring
      rw [this]; exact hu
    · refine ⟨(vs.upper - σ v).toNat, by omega, ?_⟩
      have : u + -co * (vs.upper - σ v) - ((vs.upper - σ v).toNat : Int) * (co.natAbs : Int) = u := by
        rw [Int.toNat_of_nonneg (by omega), Int.natCast_natAbs, abs_of_nonpos (by omega)]; ring
      rw [this]; exact hu

theorem point_spec (l : Int) : Canonical (IntervalSet.add [] l (l + 1)) ∧ ∀ v, v ∈ covered (IntervalSet.add [] l (l + 1)) ↔ v = l := by
  obtain ⟨h1, h2⟩ := IntervalSet.add_spec [] l (l + 1) IntervalSet.canonical_nil
  refine ⟨h1, fun v => ?_⟩
  rw [h2]
  simp [covered]
  omega

/-- The domain of a term contains all its values for variables between the bounds. -/
theorem termDomain_complete {es : CoVarVec} {d : IntervalSet} {f : Int} (h : termDomain es (leastSum (loF (frame W)) (upF (frame W)) es + f) W = .ok (d, W')) :
    Canonical d ∧ (∀ e ∈ es, e.2 < W.vars.length) ∧ (Within (loF (frame W)) (upF (frame W)) σ es → wsum σ es + f ∈ covered d) := by
  obtain ⟨p1, p2⟩ := point_spec (leastSum (loF (frame W)) (upF (frame W)) es + f)
  obtain ⟨h1, h2, h3⟩ := domainVars_complete (σ := σ) h p1
  refine ⟨h1, h2, fun hw => ?_⟩
  have := h3 hw _ ((p2 _).mpr rfl)
  rw [devSum_eq] at this
  rwa [show leastSum (loF (frame W)) (upF (frame W)) es + f + (wsum σ es - leastSum (loF (frame W)) (upF (frame W)) es) = wsum σ es + f from by ring] at this

/-- The domain of a constant. -/
theorem termDomain_const {d : IntervalSet} {f v : Int} (h : termDomain [] f W = .ok (d, W')) (hv : v ∈ covered d) : v = f := by
  obtain ⟨rfl, -⟩ := pure_iff.mp h
  exact ((point_spec f).2 v).mp hv

/-- The values of a term with one variable differ from the constant by multiples of the coefficient. -/
theorem termDomain_single {d : IntervalSet} {co f v : Int} {x : Nat} (h : termDomain [(co, x)] (leastSum (loF (frame W)) (upF (frame W)) [(co, x)] + f) W = .ok (d, W'))
    (hv : v ∈ covered d) : co ∣ v - f := by
  unfold termDomain domainVars at h
  obtain ⟨vs, W1, h1, h2⟩ := SM.bind_ok h
  obtain ⟨-, rfl⟩ := getVar_iff.mp h1
  obtain ⟨u, W2, h3, h4⟩ := SM.bind_ok h2
  obtain rfl := Reads.assertS.reads _ _ _ h3
  obtain ⟨rfl, -⟩ := pure_iff.mp h4
  obtain ⟨p1, p2⟩ := point_spec (leastSum (loF (frame W2)) (upF (frame W2)) [(co, x)] + f)
  obtain ⟨-, c2⟩ := domainValues_step _ co.natAbs (vs.upper - vs.lower).toNat p1
  obtain ⟨j, -, hj⟩ := (c2 v).mp hv
  have hj := (p2 _).mp hj
  have e1 : co ∣ leastSum (loF (frame W2)) (upF (frame W2)) [(co, x)] := by
    unfold leastSum leastSum
    split_ifs
    · exact ⟨_, by rw [add_zero]⟩
    · exact ⟨_, by rw [add_zero]⟩
  have e2 : v - f = j * (co.natAbs : Int) + leastSum (loF (frame W2)) (upF (frame W2)) [(co, x)] := by omega
  rw [e2]
  exact Dvd.dvd.add (Dvd.dvd.mul_left (Int.dvd_natAbs.mpr dvd_rfl) _) e1

/-! ### Counting values -/

/-- The keys are increasing. -/
def KeysInc (m : List (Int × Nat)) : Prop := m.Pairwise (fun p q => p.1 < q.1)

theorem countOf_cons {k v : Int} {n : Nat} {m : List (Int × Nat)} : countOf ((k, n) :: m) v = if k = v then n else countOf m v := by
  unfold countOf
  rw [List.find?_cons]
  by_cases h : k = v
  · rw [if_pos h]; simp [h]
  · rw [if_neg h]
    have : (k == v) = false := by simpa using h
    simp only [this]

theorem countOf_absent {v : Int} : ∀ {m : List (Int × Nat)}, (∀ p ∈ m, p.1 ≠ v) → countOf m v = 0
  | [], _ => rfl
  | (k, n) :: m, h => by
    rw [countOf_cons, if_neg (h (k, n) (List.mem_cons_self ..))]
    exact countOf_absent (fun p hp => h p (List.mem_cons_of_mem _ hp))

theorem countOf_mem {v : Int} {n : Nat} : ∀ {m : List (Int × Nat)}, KeysInc m → (v, n) ∈ m → countOf m v = n
  | (k, n') :: m, h, hm => by
    rw [countOf_cons]
    rcases List.mem_cons.mp hm with e | hm
    · injection e with e1 e2; rw [if_pos e1.symm, e2]
    · have := List.rel_of_pairwise_cons h hm
      rw [if_neg (by simp at this; omega)]
      exact countOf_mem (List.Pairwise.of_cons h) hm

theorem mem_of_countOf {v : Int} : ∀ {m : List (Int × Nat)}, 0 < countOf m v → (v, countOf m v) ∈ m
  | [], h => by simp [countOf] at h
  | (k, n) :: m, h => by
    rw [countOf_cons] at h ⊢
    by_cases e : k = v
    · rw [if_pos e]; subst e; exact List.mem_cons_self ..
    · rw [if_neg e] at h ⊢
      exact List.mem_cons_of_mem _ (mem_of_countOf h)

theorem countValue_key {v : Int} : ∀ {m : List (Int × Nat)} {p : Int × Nat}, p ∈ countValue v m → p.1 = v ∨ ∃ q ∈ m, q.1 = p.1
  | [], p, h => by simp [countValue] at h; exact .inl (by rw [h])
  | (k, n) :: m, p, h => by
    unfold countValue at h
    split_ifs at h with h1 h2
    · rcases List.mem_cons.mp h with rfl | h
      · exact .inl rfl
      · exact .inr ⟨p, h, rfl⟩
    · rcases List.mem_cons.mp h with rfl | h
      · exact .inl h2.symm
      · exact .inr ⟨p, List.mem_cons_of_mem _ h, rfl⟩
    · rcases List.mem_cons.mp h with rfl | h
      · exact .inr ⟨_, List.mem_cons_self .., rfl⟩
      · rcases countValue_key h with e | ⟨q, hq, e⟩
        · exact .inl e
        · exact .inr ⟨q, List.mem_cons_of_mem _ hq, e⟩

theorem countValue_spec {v : Int} : ∀ {m : List (Int × Nat)}, KeysInc m →
    KeysInc (countValue v m) ∧ ∀ w, countOf (countValue v m) w = countOf m w + if w = v then 1 else 0
  | [], _ => ⟨List.pairwise_singleton _ _, fun w => by
      unfold countValue; rw [countOf_cons]; simp [countOf, eq_comm]⟩
  | (k, n) :: m, h => by
    have hall := fun p hp => List.rel_of_pairwise_cons h (a' := p) hp
    have htl := List.Pairwise.of_cons h
    unfold countValue
    split_ifs with h1 h2
    · refine ⟨List.Pairwise.cons ?_ h, fun w => ?_⟩
      · intro p hp
        rcases List.mem_cons.mp hp with rfl | hp
        · exact h1
        · exact lt_trans h1 (hall p hp)
      · rw [countOf_cons (k := v)]
        by_cases e : v = w
        · subst e
          rw [if_pos rfl, if_pos rfl, countOf_absent]
          intro p hp
          rcases List.mem_cons.mp hp with rfl | hp
          · exact ne_of_gt h1
          · exact ne_of_gt (lt_trans h1 (hall p hp))
        · rw [if_neg e, if_neg (fun e' => e e'.symm)]; rfl
    · subst h2
      refine ⟨List.Pairwise.cons hall htl, fun w => ?_⟩
      rw [countOf_cons, countOf_cons]
      by_cases e : v = w
      · rw [if_pos e, if_pos e, if_pos e.symm]
      · rw [if_neg e, if_neg e, if_neg (fun e' => e e'.symm)]; rfl
    · obtain ⟨i1, i2⟩ := countValue_spec (v := v) htl
      refine ⟨List.Pairwise.cons ?_ i1, fun w => ?_⟩
      · intro p hp
        rcases countValue_key hp with e | ⟨q, hq, e⟩
        · show k < p.1; omega
        · have := hall q hq; show k < p.1; rw [← e]; exact this
      · rw [countOf_cons, countOf_cons, i2]
        by_cases e : k = w
        · rw [if_pos e, if_pos e, if_neg (by omega)]; rfl
        · rw [if_neg e, if_neg e]

theorem countValues_spec : ∀ {vs : List Int} {m : List (Int × Nat)}, KeysInc m →
    KeysInc (vs.foldl (fun m v => countValue v m) m) ∧ ∀ w, countOf (vs.foldl (fun m v => countValue v m) m) w = countOf m w + vs.count w
  | [], m, h => ⟨h, fun w => by simp⟩
  | v :: vs, m, h => by
    obtain ⟨h1, h2⟩ := countValue_spec (v := v) h
    obtain ⟨h3, h4⟩ := countValues_spec (vs := vs) h1
    refine ⟨h3, fun w => ?_⟩
    rw [List.foldl_cons, h4, h2, List.count_cons]
    by_cases e : w = v
    · subst e; simp; omega
    · rw [if_neg e, if_neg (by simpa using fun e' => e e'.symm)]; omega

theorem values_count {d : IntervalSet} (h : Canonical d) (v : Int) : d.values.count v = if d.contains v then 1 else 0 := by
  have hn : d.values.Nodup := (IntervalSet.values_sorted h).imp (fun h => ne_of_lt h)
  rw [List.Nodup.count hn]
  have hc : d.contains v = true ↔ v ∈ d.values := by
    rw [IntervalSet.mem_values]; exact IntervalSet.contains_iff h
  by_cases e : v ∈ d.values
  · rw [if_pos e, if_pos (hc.mpr e)]
  · rw [if_neg e, if_neg (fun h => e (hc.mp h))]

theorem countAll_aux : ∀ {ds : List IntervalSet} {m : List (Int × Nat)}, KeysInc m → (∀ d ∈ ds, Canonical d) →
    KeysInc (ds.foldl (fun m d => d.values.foldl (fun m v => countValue v m) m) m) ∧
      ∀ w, countOf (ds.foldl (fun m d => d.values.foldl (fun m v => countValue v m) m) m) w = countOf m w + ds.countP (fun d => d.contains w)
  | [], m, h, _ => ⟨h, fun w => by simp⟩
  | d :: ds, m, h, hd => by
    obtain ⟨h1, h2⟩ := countValues_spec (vs := d.values) h
    obtain ⟨h3, h4⟩ := countAll_aux (ds := ds) h1 (fun d hd' => hd d (List.mem_cons_of_mem _ hd'))
    refine ⟨h3, fun w => ?_⟩
    rw [List.foldl_cons, h4, h2, values_count (hd d (List.mem_cons_self ..)), List.countP_cons]
    omega

/-- The number recorded for a value is the number of domains containing it. -/
theorem countAll_spec {ds : List IntervalSet} (hd : ∀ d ∈ ds, Canonical d) :
    KeysInc (countAll ds) ∧ ∀ w, countOf (countAll ds) w = ds.countP (fun d => d.contains w) := by
  obtain ⟨h1, h2⟩ := countAll_aux (m := []) List.Pairwise.nil hd
  exact ⟨h1, fun w => by rw [countAll, h2]; simp [countOf]⟩

end Clingcon
