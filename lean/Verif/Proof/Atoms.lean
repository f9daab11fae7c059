import Verif.Proof.Normalize

/-! Helper lemmas about the parsing of whole atoms. -/
namespace Clingcon
open Spec
set_option linter.unusedSimpArgs false

theorem gcdAll_dvd {V : Type} (elems : List (Int × V)) (rhs : Int) :
    gcdAll elems rhs ∣ rhs ∧ ∀ t ∈ elems, gcdAll elems rhs ∣ t.1 := by
  unfold gcdAll
  induction elems generalizing rhs with
  | nil => simp
  | cons t ts ih =>
    simp only [List.foldl_cons]
    obtain ⟨h1, h2⟩ := ih (Int.gcd rhs t.1 : Int)
    refine ⟨h1.trans (Int.gcd_dvd_left _ _), ?_⟩
    intro u hu
    rcases List.mem_cons.1 hu with rfl | hu
    · exact h1.trans (Int.gcd_dvd_right _ _)
    · exact h2 u hu

theorem relHolds_mul {d : Int} (hd : 0 < d) (op : Rel) (x y : Int) : relHolds op (x * d) (y * d) ↔ relHolds op x y := by
  have h1 : x * d ≤ y * d ↔ x ≤ y := mul_le_mul_iff_of_pos_right hd
  have h2 : y * d ≤ x * d ↔ y ≤ x := mul_le_mul_iff_of_pos_right hd
  have h3 : x * d < y * d ↔ x < y := mul_lt_mul_iff_of_pos_right hd
  have h4 : y * d < x * d ↔ y < x := mul_lt_mul_iff_of_pos_right hd
  have h5 : x * d = y * d ↔ x = y := by omega
  cases op <;> simp only [relHolds, ge_iff_le, gt_iff_lt, ne_eq, h1, h2, h3, h4, h5]

theorem tdiv_mul_of_dvd {d x : Int} (h : d ∣ x) : x.tdiv d * d = x := Int.tdiv_mul_cancel h

theorem divGcd_spec {V : Type} (elems : List (Int × V)) (rhs : Int) :
    (divGcd elems rhs).1.map Prod.snd = elems.map Prod.snd ∧
    ∀ (den : V → Int) op, relHolds op (wsum den (divGcd elems rhs).1) (divGcd elems rhs).2 ↔ relHolds op (wsum den elems) rhs := by
  unfold divGcd
  simp only
  obtain ⟨h1, h2⟩ := gcdAll_dvd elems rhs
  generalize gcdAll elems rhs = d at *
  by_cases hd : d > 1
  · rw [if_pos hd]
    refine ⟨by simp [Function.comp_def], fun den op => ?_⟩
    have hw : ∀ ts : List (Int × V), (∀ t ∈ ts, d ∣ t.1) →
        wsum den (ts.map (fun t => (t.1.tdiv d, t.2))) * d = wsum den ts := by
      intro ts
      induction ts with
      | nil => intro _; simp
      | cons t ts ih =>
        intro hh
        rw [List.map_cons, wsum_cons, wsum_cons, add_mul, ih (fun t ht => hh t (List.mem_cons_of_mem _ ht))]
        have := tdiv_mul_of_dvd (hh t List.mem_cons_self)
        simp only
        rw [mul_right_comm, this]
    rw [← relHolds_mul (by omega : 0 < d), hw elems h2, tdiv_mul_of_dvd h1]
  · rw [if_neg hd]; simp

theorem simplify_value {vec out : CoVarVec} {dz : Bool} {rhs : Int}
    (h : simplify vec dz = .ok (out, rhs)) (σ : Nat → Int) : linVal σ vec = linVal σ out - rhs := by
  obtain ⟨out1, h1, rfl, -⟩ := simplify_ok h
  obtain ⟨-, -, -, h4⟩ := simplifyLoop_spec _ _ _ _ _ _ _ _ seenOK_nil h1
  have := h4 (linDen σ) (by
    intro v hv
    have hv := (isValidVar_false v).1 (by simpa using hv)
    unfold linDen; rw [if_neg (by omega)])
  simp only [wsum_nil] at this
  unfold linVal
  cases dz
  · simp; omega
  · simp only [if_true]; rw [wsum_filter_ne_zero]; omega

theorem relHolds_sub (op : Rel) (x y z w : Int) (h : x - y = z - w) : relHolds op x y ↔ relHolds op z w := by
  cases op <;> simp only [relHolds] <;> omega

theorem captures_congr {τ : Nat → Int} {Base : (Nat → Bool) → Prop} {n n' : Int} {new : List Event} {ok : Bool}
    {P P' : (Nat → Bool) → Prop} (h : Captures τ Base n n' new ok P) (hp : ∀ β, P β ↔ P' β) :
    Captures τ Base n n' new ok P' := by
  have : P = P' := funext fun β => propext (hp β)
  rw [← this]; exact h

/-- The part of atom parsing after the list of terms was obtained. -/
theorem finish_spec {env : BEnv} {τ : Nat → Int} {Base : (Nat → Bool) → Prop} {V : Type} {add : AddConstraint V}
    {den : V → Int} {lit : Int} {op : Rel} {strict : Bool} {s0 s s' : BState} {b : Bool} {elems : List (Int × V)} {rhs : Int}
    (hext : Ext s0 s) (ho : Oracle env τ s0.log s0.nextLit Base) (h0 : lit ≠ 0) (h1 : |lit| < s0.nextLit)
    (ha : AddOK env τ den add (elems.map Prod.snd))
    (h : normalize env add lit (divGcd elems rhs).1 op (divGcd elems rhs).2 strict s = .ok (b, s')) :
    ∃ new, s' = { s with log := s.log ++ new, nextLit := s'.nextLit } ∧
      Captures τ Base s0.nextLit s'.nextLit new b
        (fun β => attached β lit strict (relHolds op (wsum den elems) rhs)) := by
  obtain ⟨d1, d2⟩ := divGcd_spec elems rhs
  have ho' : Oracle env τ s.log s.nextLit Base := by rw [hext.log, hext.next]; exact ho
  rw [← hext.next] at h1 ⊢
  obtain ⟨new, k1, k2⟩ := captures_of_defines ho' (defines_normalize ho' (divGcd elems rhs).1 (by rw [d1]; exact ha) h0 h1 rfl rfl) rfl
    (fun β β' hb => by simp only [attached, litTrue_congr hb h1]) h
  exact ⟨new, k1, captures_congr k2 (fun β => by rw [d2 den op])⟩

/-! ### Nonlinear constraints -/

theorem sortTerm_den (τ : Nat → Int) (t : Int × List Nat) : prodDen τ (sortTerm t).2 = prodDen τ t.2 := by
  unfold sortTerm prodDen
  exact ((List.perm_insertionSort (· ≤ ·) t.2).map τ).prod_eq

theorem wsum_sortTerm (τ : Nat → Int) (ts : List (Int × List Nat)) :
    wsum (prodDen τ) (ts.map sortTerm) = wsum (prodDen τ) ts := by
  induction ts with
  | nil => rfl
  | cons t ts ih =>
    rw [List.map_cons, wsum_cons, wsum_cons, ih, sortTerm_den]; rfl

theorem simplifyNonlin_ok {vec out : List (Int × List Nat)} {dz : Bool} {rhs : Int}
    (h : simplifyNonlin vec dz = .ok (out, rhs)) :
    ∃ out1, simplifyLoop (fun v => v.isEmpty) dz (vec.map sortTerm) [] [] 0 = .ok (out1, rhs) ∧
      out = if dz then out1.filter (fun t => t.1 != 0) else out1 := by
  unfold simplifyNonlin at h
  obtain ⟨⟨o, r⟩, h1, h⟩ := bind_ok h
  obtain ⟨x, h2, h⟩ := bind_ok h
  obtain ⟨⟨mn, mx⟩, h3, h⟩ := bind_ok h
  obtain ⟨y, h4, h⟩ := bind_ok h
  obtain ⟨z, h5, h⟩ := bind_ok h
  have h := pure_ok h
  simp only [Prod.mk.injEq] at h
  obtain ⟨rfl, rfl⟩ := h
  exact ⟨o, h1, rfl⟩

theorem simplifyNonlin_value {vec out : List (Int × List Nat)} {dz : Bool} {rhs : Int}
    (h : simplifyNonlin vec dz = .ok (out, rhs)) (τ : Nat → Int) :
    wsum (prodDen τ) vec = wsum (prodDen τ) out - rhs := by
  obtain ⟨out1, h1, rfl⟩ := simplifyNonlin_ok h
  obtain ⟨-, -, -, h4⟩ := simplifyLoop_spec _ _ _ _ _ _ _ _ seenOK_nil h1
  have := h4 (prodDen τ) (by
    intro v hv
    have : v = [] := by simpa using hv
    subst this; rfl)
  simp only [wsum_nil] at this
  rw [wsum_sortTerm] at this
  cases dz
  · simp; omega
  · simp only [if_true]; rw [wsum_filter_ne_zero]; omega

/-- Classification of terms keeps the value if there is at most one product. -/
theorem classify_spec (τ : Nat → Int) : ∀ (ts : List (Int × List Nat)) (coab : Int) (a b : Nat) (coc : Int) (c : Nat) r,
    classify ts (coab, a, b, coc, c) = .ok r → ((ts.map Prod.snd).filter (fun v => v.length = 2)).length + (if coab = 0 then 0 else 1) ≤ 1 →
    (∀ t ∈ ts, t.2 ≠ []) →
    r.1 * (τ r.2.1 * τ r.2.2.1) + r.2.2.2.1 * τ r.2.2.2.2 =
      coab * (τ a * τ b) + coc * τ c + wsum (prodDen τ) ts := by
  intro ts
  induction ts with
  | nil =>
    intro coab a b coc c r h _ _
    simp only [classify, Except.ok.injEq] at h
    subst h; simp
  | cons t ts ih =>
    intro coab a b coc c r h hc hne
    obtain ⟨co, vars⟩ := t
    have hne' : ∀ t ∈ ts, t.2 ≠ [] := fun t ht => hne t (List.mem_cons_of_mem _ ht)
    match vars, h, hc, hne with
    | [], h, hc, hne => exact absurd rfl (hne (co, []) List.mem_cons_self)
    | [v], h, hc, hne =>
      simp only [classify] at h
      by_cases hz : coc = 0
      · rw [if_pos hz] at h
        have := ih coab a b co v r h (by simpa using hc) hne'
        rw [this]; simp [prodDen, hz]; ring
      · rw [if_neg hz] at h; cases h
    | [v, w], h, hc, hne =>
      simp only [classify] at h
      by_cases hz : coc = 0
      · rw [if_pos hz] at h
        simp only [List.map_cons, List.length_cons, List.length_nil, zero_add, Nat.reduceAdd, decide_true,
          List.filter_cons_of_pos] at hc
        have hab : coab = 0 := by
          by_contra hh
          rw [if_neg hh] at hc; omega
        rw [if_pos hab] at hc
        have := ih co v w coc c r h (by split_ifs <;> omega) hne'
        rw [this]; simp [prodDen, hz, hab]
      · rw [if_neg hz] at h; cases h
    | _ :: _ :: _ :: _, h, hc, hne => simp [classify] at h

theorem addOK_nonlin {env : BEnv} {τ : Nat → Int} {vars : List (List Nat)}
    (h1 : (vars.filter (fun v => v.length = 2)).length ≤ 1) (h2 : [] ∉ vars) :
    AddOK env τ (prodDen τ) (addNonlin env) vars := by
  intro lit elems rhs strict s b s' hv h
  unfold addNonlin at h
  obtain ⟨⟨coab, a, b', coc, c⟩, k1, h⟩ := liftBind_ok h
  simp only [post, Except.ok.injEq, Prod.mk.injEq] at h
  obtain ⟨rfl, rfl⟩ := h
  refine ⟨_, rfl, rfl, fun β => ?_⟩
  have := classify_spec τ elems _ _ _ _ _ _ k1 (by rw [hv]; simpa using h1) (by
    intro t ht he
    exact h2 (by rw [← hv]; exact List.mem_map.2 ⟨t, ht, he⟩))
  simp only [holds]
  simp only [zero_mul, zero_add] at this
  rw [this]

/-- Lengths of duplicate free lists are bounded by those of lists with more members. -/
theorem length_le_of_subset {α : Type} [DecidableEq α] {l l' : List α} (h : l.Nodup) (hs : ∀ x ∈ l, x ∈ l') :
    l.length ≤ l'.length := (h.subperm hs).length_le

theorem simplifyNonlin_products {vec out : List (Int × List Nat)} {rhs : Int}
    (h : simplifyNonlin vec true = .ok (out, rhs))
    (hp : (firstOcc (((vec.map (fun t => t.2.insertionSort (· ≤ ·)))).filter (fun v => v.length = 2))).length ≤ 1) :
    ((out.map Prod.snd).filter (fun v => v.length = 2)).length ≤ 1 ∧ [] ∉ out.map Prod.snd := by
  obtain ⟨out1, h1, rfl⟩ := simplifyNonlin_ok h
  obtain ⟨e1, -, -, -⟩ := simplifyLoop_spec _ _ _ _ _ _ _ _ seenOK_nil h1
  simp only [List.map_nil, List.nil_append, List.not_mem_nil, not_false_eq_true, decide_true,
    List.filter_true] at e1
  have hnd : (out1.map Prod.snd).Nodup := by rw [e1]; exact nodup_firstOcc _
  have hmem : ∀ v ∈ out1.map Prod.snd, v ≠ [] ∧ v ∈ vec.map (fun t => t.2.insertionSort (· ≤ ·)) := by
    intro v hv
    rw [e1, mem_firstOcc] at hv
    unfold keptVars at hv
    obtain ⟨u, hu, he⟩ := List.mem_map.1 hv
    obtain ⟨hu, hu'⟩ := List.mem_filter.1 hu
    obtain ⟨w, hw, hw'⟩ := List.mem_map.1 hu
    refine ⟨?_, ?_⟩
    · intro hh
      rw [hh] at he
      simp [he] at hu'
    · refine List.mem_map.2 ⟨w, hw, ?_⟩
      rw [← he, ← hw']; rfl
  simp only [if_true]
  have hsub : ((out1.filter (fun t => t.1 != 0)).map Prod.snd).Sublist (out1.map Prod.snd) := List.filter_sublist.map _
  refine ⟨le_trans (length_le_of_subset ((hnd.sublist hsub).filter _) ?_) hp, ?_⟩
  · intro v hv
    obtain ⟨g1, g2⟩ := List.mem_filter.1 hv
    rw [mem_firstOcc, List.mem_filter]
    exact ⟨(hmem v (hsub.subset g1)).2, g2⟩
  · intro hh
    exact (hmem [] (hsub.subset hh)).1 rfl

/-- The table of symbols grows and stays well-formed. -/
structure Grows (s s' : BState) : Prop where
  wf : s'.WF
  sym : ∃ more, s'.symMap = s.symMap ++ more
  num : s.numVars ≤ s'.numVars
  next : s.nextLit ≤ s'.nextLit

theorem sumAtom_spec (pow : Int → Int → Res Int) (hpow : ∀ x y z, pow x y = .ok z → -2 ^ 31 ≤ z ∧ z ≤ 2 ^ 31 - 1)
    (env : BEnv) (σ : Sym → Int) (τ : Nat → Int) (Base : (Nat → Bool) → Prop)
    (lit : Int) (elems : List Term) (op : Rel) (t : Term) (strict : Bool) (s s' : BState) (b : Bool)
    (hw : s.WF) (ho : Oracle env τ s.log s.nextLit Base)
    (h0 : env.solverLit lit ≠ 0) (h1 : |env.solverLit lit| < s.nextLit)
    (h : parseSumAtom pow env { lit := lit, elems := elems, guard := some (op, t) } strict s = .ok (b, s')) :
    Grows s s' ∧ (s'.numVars ≤ 2 ^ 32 - 1 → Agree σ τ s' → ∃ v w new, sumValue names (powers pow) σ elems = some v ∧ value names (powers pow) σ t = some w ∧
      s'.log = s.log ++ new ∧
      Captures τ Base s.nextLit s'.nextLit new b
        (fun β => attached β (env.solverLit lit) strict (relHolds op v w))) := by
  unfold parseSumAtom at h
  simp only at h
  obtain ⟨el, s1, k1, h⟩ := bindS_ok h
  obtain ⟨⟨out, rhs⟩, k2, h⟩ := liftBind_ok h
  obtain ⟨w1, w2, more, w3, w4, -⟩ := parseSum_spec names_spec powers_spec
    (fun x y z h => by rw [val_fits]; have := hpow x y z h; omega) hw k1
  rw [List.nil_append] at w3; subst w3
  obtain ⟨new, e1, e2⟩ := finish_spec (den := linDen τ) w2 ho h0 h1 (addOK_linear _) h
  have hs' : s'.numVars = s1.numVars ∧ s'.symMap = s1.symMap ∧ s'.log = s1.log ++ new := by rw [e1]; exact ⟨rfl, rfl, rfl⟩
  refine ⟨⟨⟨by rw [hs'.2.1]; exact w1.keys, by rw [hs'.2.1]; exact w1.vals, by rw [hs'.2.1, hs'.1]; exact w1.bound⟩,
    by rw [hs'.2.1]; exact w2.sym, by rw [hs'.1]; exact w2.num, e2.mono⟩, fun hn ha => ?_⟩
  have hv := w4 (by omega) σ τ _ (lawful_lin τ) (by intro p hp; exact ha p (by rw [hs'.2.1]; exact hp))
  beta_reduce at hv
  have hsv := simplify_value k2 τ
  unfold linVal at hsv
  cases hv1 : sumValue names (powers pow) σ elems with
  | none => rw [hv1] at hv; cases hv
  | some v =>
    cases hv2 : value names (powers pow) σ t with
    | none => rw [hv1, hv2] at hv; cases hv
    | some w =>
      rw [hv1, hv2] at hv
      have hv : v - w = wsum (linDen τ) el := by injection hv
      refine ⟨v, w, new, rfl, rfl, by rw [hs'.2.2, w2.log], captures_congr e2 fun β => ?_⟩
      rw [relHolds_sub op v w (wsum (linDen τ) out) rhs (by omega)]

theorem diffAtom_spec (pow : Int → Int → Res Int) (hpow : ∀ x y z, pow x y = .ok z → -2 ^ 31 ≤ z ∧ z ≤ 2 ^ 31 - 1)
    (env : BEnv) (σ : Sym → Int) (τ : Nat → Int) (Base : (Nat → Bool) → Prop)
    (lit : Int) (elems : List Term) (op : Rel) (t : Term) (strict : Bool) (s s' : BState) (b : Bool)
    (hw : s.WF) (ho : Oracle env τ s.log s.nextLit Base)
    (h0 : env.solverLit lit ≠ 0) (h1 : |env.solverLit lit| < s.nextLit)
    (h : parseDiffAtom pow env { lit := lit, elems := elems, guard := some (op, t) } strict s = .ok (b, s')) :
    Grows s s' ∧ (s'.numVars ≤ 2 ^ 32 - 1 → Agree σ τ s' → ∃ v w new, diffValue names (powers pow) σ elems = some v ∧ ground names (powers pow) t = some (.num w) ∧
      s'.log = s.log ++ new ∧
      Captures τ Base s.nextLit s'.nextLit new b
        (fun β => attached β (env.solverLit lit) strict (relHolds op v w))) := by
  unfold parseDiffAtom at h
  simp only at h
  obtain ⟨el, s1, k1, h⟩ := bindS_ok h
  obtain ⟨⟨out, rhs⟩, k2, h⟩ := liftBind_ok h
  obtain ⟨w1, w2, more, w3, w4, -⟩ := parseDiff_spec names_spec powers_spec
    (fun x y z h => by rw [val_fits]; have := hpow x y z h; omega) hw k1
  rw [List.nil_append] at w3; subst w3
  obtain ⟨new, e1, e2⟩ := finish_spec (den := linDen τ) w2 ho h0 h1 (addOK_linear _) h
  have hs' : s'.numVars = s1.numVars ∧ s'.symMap = s1.symMap ∧ s'.log = s1.log ++ new := by rw [e1]; exact ⟨rfl, rfl, rfl⟩
  refine ⟨⟨⟨by rw [hs'.2.1]; exact w1.keys, by rw [hs'.2.1]; exact w1.vals, by rw [hs'.2.1, hs'.1]; exact w1.bound⟩,
    by rw [hs'.2.1]; exact w2.sym, by rw [hs'.1]; exact w2.num, e2.mono⟩, fun hn ha => ?_⟩
  have hv := w4 (by omega) σ τ _ (lawful_lin τ) (by intro p hp; exact ha p (by rw [hs'.2.1]; exact hp))
  beta_reduce at hv
  have hsv := simplify_value k2 τ
  unfold linVal at hsv
  cases hv1 : diffValue names (powers pow) σ elems with
  | none => rw [hv1] at hv; cases hv
  | some v =>
    cases hv2 : ground names (powers pow) t with
    | none => rw [hv1, hv2] at hv; cases hv
    | some y =>
      cases y with
      | str x => rw [hv1, hv2] at hv; cases hv
      | fn x y z => rw [hv1, hv2] at hv; cases hv
      | num w =>
        rw [hv1, hv2] at hv
        have hv : v - w = wsum (linDen τ) el := by injection hv
        refine ⟨v, w, new, rfl, rfl, by rw [hs'.2.2, w2.log], captures_congr e2 fun β => ?_⟩
        rw [relHolds_sub op v w (wsum (linDen τ) out) rhs (by omega)]

theorem nsumAtom_spec (pow : Int → Int → Res Int) (hpow : ∀ x y z, pow x y = .ok z → -2 ^ 31 ≤ z ∧ z ≤ 2 ^ 31 - 1)
    (env : BEnv) (σ : Sym → Int) (τ : Nat → Int) (Base : (Nat → Bool) → Prop)
    (lit : Int) (elems : List Term) (op : Rel) (t : Term) (strict : Bool) (s s' : BState) (b : Bool)
    (hw : s.WF) (ho : Oracle env τ s.log s.nextLit Base)
    (h0 : env.solverLit lit ≠ 0) (h1 : |env.solverLit lit| < s.nextLit)
    (h : parseNsumAtom pow env { lit := lit, elems := elems, guard := some (op, t) } strict s = .ok (b, s'))
    (hp : ∀ ts s1, parseSum pow nonlinOps elems (some t) s = .ok (ts, s1) → (firstOcc (((ts.map (fun t => t.2.insertionSort (· ≤ ·)))).filter (fun v => v.length = 2))).length ≤ 1) :
    Grows s s' ∧ (s'.numVars ≤ 2 ^ 32 - 1 → Agree σ τ s' → ∃ v w new, sumValue names (powers pow) σ elems = some v ∧ value names (powers pow) σ t = some w ∧
      s'.log = s.log ++ new ∧
      Captures τ Base s.nextLit s'.nextLit new b
        (fun β => attached β (env.solverLit lit) strict (relHolds op v w))) := by
  unfold parseNsumAtom at h
  simp only at h
  obtain ⟨el, s1, k1, h⟩ := bindS_ok h
  obtain ⟨⟨out, rhs⟩, k2, h⟩ := liftBind_ok h
  obtain ⟨w1, w2, more, w3, w4, -⟩ := parseSum_spec names_spec powers_spec
    (fun x y z h => by rw [val_fits]; have := hpow x y z h; omega) hw k1
  rw [List.nil_append] at w3; subst w3
  have hone := simplifyNonlin_products k2 (hp _ _ k1)
  obtain ⟨new, e1, e2⟩ := finish_spec (den := prodDen τ) w2 ho h0 h1 (addOK_nonlin hone.1 hone.2) h
  have hs' : s'.numVars = s1.numVars ∧ s'.symMap = s1.symMap ∧ s'.log = s1.log ++ new := by rw [e1]; exact ⟨rfl, rfl, rfl⟩
  refine ⟨⟨⟨by rw [hs'.2.1]; exact w1.keys, by rw [hs'.2.1]; exact w1.vals, by rw [hs'.2.1, hs'.1]; exact w1.bound⟩,
    by rw [hs'.2.1]; exact w2.sym, by rw [hs'.1]; exact w2.num, e2.mono⟩, fun hn ha => ?_⟩
  have hv := w4 (by omega) σ τ _ (lawful_nonlin τ) (by intro p hp; exact ha p (by rw [hs'.2.1]; exact hp))
  beta_reduce at hv
  have hsv := simplifyNonlin_value k2 τ
  cases hv1 : sumValue names (powers pow) σ elems with
  | none => rw [hv1] at hv; cases hv
  | some v =>
    cases hv2 : value names (powers pow) σ t with
    | none => rw [hv1, hv2] at hv; cases hv
    | some w =>
      rw [hv1, hv2] at hv
      have hv : v - w = wsum (prodDen τ) el := by injection hv
      refine ⟨v, w, new, rfl, rfl, by rw [hs'.2.2, w2.log], captures_congr e2 fun β => ?_⟩
      rw [relHolds_sub op v w (wsum (prodDen τ) out) rhs (by omega)]

end Clingcon
