import Verif.Proof.Normalize
import Verif.Spec.Posting
import Verif.Props.Simplify

/-! Helper lemmas about the constraint builder. -/
namespace Clingcon
open Spec
set_option linter.unusedSimpArgs false
set_option linter.unusedVariables false

theorem bindP_ok {α β : Type} {x : PM α} {f : α → PM β} {s : PState} {r : β × PState}
    (h : (x >>= f) s = .ok r) : ∃ a s', x s = .ok (a, s') ∧ f a s' = .ok r := by
  obtain ⟨⟨a, s'⟩, h1, h2⟩ := bind_ok (x := x s) (f := fun p => f p.1 p.2) h
  exact ⟨a, s', h1, h2⟩

theorem pureP_ok {α : Type} {a b : α} {s s' : PState} (h : (pure a : PM α) s = .ok (b, s')) : a = b ∧ s = s' := by
  injection h with h
  injection h with h1 h2
  exact ⟨h1, h2⟩

theorem liftP_ok {α β : Type} {x : Res α} {f : α → PM β} {s : PState} {r : β × PState}
    (h : ((liftM x : PM α) >>= f) s = .ok r) : ∃ a, x = .ok a ∧ f a s = .ok r := by
  obtain ⟨a, s1, h1, h2⟩ := bindP_ok h
  cases x with
  | error e => cases h1
  | ok a' =>
    injection h1 with h1
    injection h1 with e1 e2
    subst e1 e2
    exact ⟨_, rfl, h2⟩

theorem pValue_ok {env : PEnv} {l : Int} {s s' : PState} {v : Option Bool} (h : pValue env l s = .ok (v, s')) :
    v = env.value s.log l ∧ s' = s := by
  unfold pValue at h
  injection h with h
  injection h with h1 h2
  exact ⟨h1.symm, h2.symm⟩

section
variable {τ : Nat → Int} {env : PEnv}

theorem Spec.PCaptures.congr {Base : (Nat → Bool) → Prop} {n n' : Int} {new : List PEv} {b : Bool} {P P' : (Nat → Bool) → Prop}
    (h : PCaptures τ Base n n' new b P) (hp : ∀ β, Base β → (P β ↔ P' β)) : PCaptures τ Base n n' new b P' where
  mono := h.mono
  sound β hb p := h.sound β hb ((hp β hb).mpr p)
  complete β hb k := (hp β hb).mp (h.complete β hb k)
  unique := h.unique
  locality := h.locality
  conflict hf β hb p := h.conflict hf β hb ((hp β hb).mpr p)

theorem Spec.PCaptures.seq {Base : (Nat → Bool) → Prop} {n n1 n2 : Int} {new1 new2 : List PEv} {b : Bool}
    {P1 P2 : (Nat → Bool) → Prop} (hloc : ∀ β β', agreeBelow n β β' → Base β → Base β')
    (h2l : ∀ β β', agreeBelow n β β' → P2 β → P2 β')
    (c1 : PCaptures τ Base n n1 new1 true P1)
    (c2 : PCaptures τ (fun β => Base β ∧ ∀ e ∈ new1, pholds β τ e) n1 n2 new2 b P2) :
    PCaptures τ Base n n2 (new1 ++ new2) b (fun β => P1 β ∧ P2 β) where
  mono := le_trans c1.mono c2.mono
  sound := by
    rintro β hb ⟨p1, p2⟩
    obtain ⟨β', a1, k1⟩ := c1.sound β hb p1
    obtain ⟨β'', a2, k2⟩ := c2.sound β' ⟨hloc _ _ a1 hb, k1⟩ (h2l _ _ a1 p2)
    refine ⟨β'', fun k hk => (a1 k hk).trans (a2 k (lt_of_lt_of_le hk c1.mono)), fun e he => ?_⟩
    rcases List.mem_append.1 he with he | he
    · exact (c1.locality e he _ _ a2).1 (k1 e he)
    · exact k2 e he
  complete := by
    intro β hb h
    have h1 : ∀ e ∈ new1, pholds β τ e := fun e he => h e (List.mem_append_left _ he)
    exact ⟨c1.complete β hb h1, c2.complete β ⟨hb, h1⟩ fun e he => h e (List.mem_append_right _ he)⟩
  unique := by
    intro β β' hb ha h h'
    have h1 : ∀ e ∈ new1, pholds β τ e := fun e he => h e (List.mem_append_left _ he)
    have h1' : ∀ e ∈ new1, pholds β' τ e := fun e he => h' e (List.mem_append_left _ he)
    exact c2.unique β β' ⟨hb, h1⟩ (c1.unique β β' hb ha h1 h1') (fun e he => h e (List.mem_append_right _ he))
      (fun e he => h' e (List.mem_append_right _ he))
  locality := by
    intro e he β β' ha
    rcases List.mem_append.1 he with he | he
    · exact c1.locality e he β β' fun k hk => ha k (lt_of_lt_of_le hk c2.mono)
    · exact c2.locality e he β β' ha
  conflict := by
    rintro hb β h ⟨p1, p2⟩
    obtain ⟨β', a1, k1⟩ := c1.sound β h p1
    exact c2.conflict hb β' ⟨hloc _ _ a1 h, k1⟩ (h2l _ _ a1 p2)

theorem Spec.POracle.next {Base : (Nat → Bool) → Prop} {log new : List PEv} {n n1 : Int} {b : Bool} {P : (Nat → Bool) → Prop}
    (ho : POracle env τ log n Base) (c : PCaptures τ Base n n1 new b P) :
    POracle env τ (log ++ new) n1 (fun β => Base β ∧ ∀ e ∈ new, pholds β τ e) where
  pos := lt_of_lt_of_le ho.pos c.mono
  tt β h := ho.tt β h.1
  loc β β' ha h := ⟨ho.loc β β' (fun k hk => ha k (lt_of_lt_of_le hk c.mono)) h.1,
    fun e he => (c.locality e he β β' ha).1 (h.2 e he)⟩
  sound new' l v β h hb hn := by
    rw [List.append_assoc] at h
    refine ho.sound _ l v β h hb.1 fun e he => ?_
    rcases List.mem_append.1 he with he | he
    · exact hb.2 e he
    · exact hn e he
  rejects new' e β h hb hn := by
    rw [List.append_assoc] at h
    refine ho.rejects _ e β h hb.1 fun e he => ?_
    rcases List.mem_append.1 he with he | he
    · exact hb.2 e he
    · exact hn e he
  sort := ho.sort

theorem Spec.POracle.grow {Base : (Nat → Bool) → Prop} {log : List PEv} {n n1 : Int} (ho : POracle env τ log n Base) (h : n ≤ n1) :
    POracle env τ log n1 Base where
  pos := lt_of_lt_of_le ho.pos h
  tt := ho.tt
  loc β β' ha hb := ho.loc β β' (fun k hk => ha k (lt_of_lt_of_le hk h)) hb
  sound := ho.sound
  rejects := ho.rejects
  sort := ho.sort

theorem Spec.POracle.litval {Base : (Nat → Bool) → Prop} {log : List PEv} {n : Int} (ho : POracle env τ log n Base) {l : Int} {v : Bool}
    (h : env.value log l = some v) {β : Nat → Bool} (hb : Base β) : (litTrue β l ↔ v = true) := by
  unfold PEnv.value at h
  unfold litTrue
  split_ifs at h ⊢ with h1
  · rw [ho.sound [] l.natAbs v β (by rw [List.append_nil]; exact h) hb (by simp)]
  · obtain ⟨w, h2, rfl⟩ := Option.map_eq_some_iff.mp h
    rw [ho.sound [] l.natAbs w β (by rw [List.append_nil]; exact h2) hb (by simp)]
    cases w <;> simp

/-- The result of a computation: calls are added, which capture `P`. -/
def PSpec (τ : Nat → Int) (Base : (Nat → Bool) → Prop) (s : PState) (b : Bool) (s' : PState) (P : (Nat → Bool) → Prop) : Prop :=
  ∃ new, s'.log = s.log ++ new ∧ PCaptures τ Base s.nextLit s'.nextLit new b P

/-- `P` only depends on literals below `n`. -/
def LocalP (n : Int) (P : (Nat → Bool) → Prop) : Prop := ∀ β β', agreeBelow n β β' → P β → P β'

theorem agree_symm {n : Int} {β β' : Nat → Bool} (h : agreeBelow n β β') : agreeBelow n β' β := fun k hk => (h k hk).symm

theorem PSpec.congr {Base : (Nat → Bool) → Prop} {s s' : PState} {b : Bool} {P P' : (Nat → Bool) → Prop}
    (h : PSpec τ Base s b s' P) (hp : ∀ β, Base β → (P β ↔ P' β)) : PSpec τ Base s b s' P' := by
  obtain ⟨new, h1, h2⟩ := h
  exact ⟨new, h1, h2.congr hp⟩

theorem pspec_true (Base : (Nat → Bool) → Prop) (s : PState) : PSpec τ Base s true s (fun _ => True) := by
  refine ⟨[], by simp, le_refl _, ?_, ?_, ?_, by simp, by simp⟩
  · exact fun β _ _ => ⟨β, fun _ _ => rfl, by simp⟩
  · intros; trivial
  · exact fun β β' _ h _ _ => h

/-- A single call that does not introduce literals. -/
theorem pspec_one {Base : (Nat → Bool) → Prop} {s : PState} {b : Bool} (e : PEv)
    (hl : LocalP s.nextLit (fun β => pholds β τ e)) (hc : b = false → ∀ β, Base β → ¬ pholds β τ e) :
    PSpec τ Base s b { s with log := s.log ++ [e] } (fun β => pholds β τ e) := by
  refine ⟨[e], rfl, le_refl _, ?_, ?_, ?_, ?_, hc⟩
  · exact fun β _ h => ⟨β, fun _ _ => rfl, by simpa using h⟩
  · intro β _ h; simpa using h
  · exact fun β β' _ h _ _ => h
  · intro e' he' β β' h
    rw [List.mem_singleton] at he'
    subst he'
    exact ⟨hl β β' h, hl β' β (agree_symm h)⟩

theorem pspec_post {Base : (Nat → Bool) → Prop} {s s' : PState} {b : Bool} {e : PEv} (ho : POracle env τ s.log s.nextLit Base)
    (hl : LocalP s.nextLit (fun β => pholds β τ e)) (h : pPost env e s = .ok (b, s')) : PSpec τ Base s b s' (fun β => pholds β τ e) := by
  unfold pPost at h
  injection h with h
  injection h with h1 h2
  subst h1 h2
  refine pspec_one e hl fun hf β hb => ?_
  exact ho.rejects [] e β (by rw [List.append_nil]; exact hf) hb (by simp)

theorem pspec_con {Base : (Nat → Bool) → Prop} {s s' : PState} {u : Unit} {c : Constr}
    (hl : |c.lit| < s.nextLit) (h : pCon c s = .ok (u, s')) : PSpec τ Base s true s' (fun β => litTrue β c.lit → conHolds τ none c) := by
  unfold pCon at h
  injection h with h
  injection h with h1 h2
  subst h2
  refine pspec_one (.con c) ?_ (by simp)
  intro β β' ha hh hk
  exact hh ((litTrue_congr ha hl).mpr hk)

/-- Sequential composition of computations. -/
theorem pspec_seq {Base : (Nat → Bool) → Prop} {s s1 s' : PState} {b : Bool} {P1 P2 : (Nat → Bool) → Prop}
    (ho : POracle env τ s.log s.nextLit Base) (hl : LocalP s.nextLit P2) (h1 : PSpec τ Base s true s1 P1)
    (h2 : ∀ Base', (∀ β, Base' β → Base β ∧ P1 β) → POracle env τ s1.log s1.nextLit Base' → PSpec τ Base' s1 b s' P2) :
    PSpec τ Base s b s' (fun β => P1 β ∧ P2 β) ∧ s.nextLit ≤ s1.nextLit := by
  obtain ⟨new1, e1, c1⟩ := h1
  have ho1 := ho.next c1
  rw [← e1] at ho1
  obtain ⟨new2, e2, c2⟩ := h2 _ (fun β h => ⟨h.1, c1.complete β h.1 h.2⟩) ho1
  exact ⟨⟨new1 ++ new2, by rw [e2, e1, List.append_assoc], c1.seq ho.loc hl c2⟩, c1.mono⟩

theorem pspec_and {Base : (Nat → Bool) → Prop} {s s' : PState} {b : Bool} {P1 P2 : (Nat → Bool) → Prop} {c1 c2 : PM Bool}
    (ho : POracle env τ s.log s.nextLit Base) (hl : LocalP s.nextLit P2) (h : pAnd c1 c2 s = .ok (b, s'))
    (h1 : ∀ b1 s1, c1 s = .ok (b1, s1) → PSpec τ Base s b1 s1 P1)
    (h2 : ∀ s1 Base', s.nextLit ≤ s1.nextLit → (∀ β, Base' β → Base β ∧ P1 β) → POracle env τ s1.log s1.nextLit Base' → c2 s1 = .ok (b, s') → PSpec τ Base' s1 b s' P2) :
    PSpec τ Base s b s' (fun β => P1 β ∧ P2 β) := by
  unfold pAnd at h
  obtain ⟨b1, s1, k1, k2⟩ := bindP_ok h
  have g1 := h1 b1 s1 k1
  cases b1 with
  | true =>
    rw [if_pos rfl] at k2
    obtain ⟨new1, e1, c1'⟩ := id g1
    exact (pspec_seq ho hl g1 (fun Base' hb ho' => h2 s1 Base' c1'.mono hb ho' k2)).1
  | false =>
    rw [if_neg (by simp)] at k2
    obtain ⟨rfl, rfl⟩ := pureP_ok k2
    obtain ⟨new1, e1, c1'⟩ := g1
    have nc := c1'.conflict rfl
    refine ⟨new1, e1, c1'.mono, ?_, ?_, c1'.unique, c1'.locality, ?_⟩
    · exact fun β hb p => absurd p.1 (nc β hb)
    · exact fun β hb k => absurd (c1'.complete β hb k) (nc β hb)
    · exact fun _ β hb p => nc β hb p.1

/-- Introduction of `k` fresh literals that are defined in terms of the other ones. -/
theorem pspec_fresh {Base : (Nat → Bool) → Prop} {s s' : PState} {b : Bool} (k : Nat) {P P' : (Nat → Bool) → Prop} (δ : (Nat → Bool) → Nat → Prop)
    (ho : POracle env τ s.log s.nextLit Base) (hP : LocalP s.nextLit P) (hδ : ∀ β β', agreeBelow s.nextLit β β' → ∀ i, δ β i ↔ δ β' i)
    (h : PSpec τ Base { s with nextLit := s.nextLit + k } b s' P')
    (hp : ∀ β, Base β → (P' β ↔ P β ∧ ∀ i < k, (litTrue β (s.nextLit + i) ↔ δ β i))) : PSpec τ Base s b s' P := by
  obtain ⟨new, e, c⟩ := h
  have hpos := ho.pos
  refine ⟨new, e, ?_, ?_, ?_, ?_, c.locality, ?_⟩
  · have := c.mono; dsimp only at this; omega
  · intro β hb p
    obtain ⟨β', g1, g2⟩ := extend (n0 := s.nextLit) (by omega) β (δ β)
    have p' := (hp β' (ho.loc _ _ g1 hb)).mpr ⟨hP _ _ g1 p, fun i _ => by rw [g2 i]; exact hδ _ _ g1 i⟩
    obtain ⟨β'', a2, k2⟩ := c.sound β' (ho.loc _ _ g1 hb) p'
    exact ⟨β'', fun j hj => (g1 j hj).trans (a2 j (by dsimp only; omega)), k2⟩
  · intro β hb he
    exact ((hp β hb).mp (c.complete β hb he)).1
  · intro β β' hb ha he he'
    have hb' := ho.loc _ _ ha hb
    refine c.unique β β' hb ?_ he he'
    intro j hj
    dsimp only at hj
    by_cases hlt : (j : Int) < s.nextLit
    · exact ha j hlt
    · have e1 := ((hp β hb).mp (c.complete β hb he)).2 (j - s.nextLit.toNat) (by omega)
      have e2 := ((hp β' hb').mp (c.complete β' hb' he')).2 (j - s.nextLit.toNat) (by omega)
      rw [hδ _ _ ha, ← e2] at e1
      unfold litTrue at e1
      rw [if_pos (by omega), if_pos (by omega)] at e1
      have : (s.nextLit + ((j - s.nextLit.toNat : Nat) : Int)).natAbs = j := by omega
      rw [this] at e1
      exact Bool.eq_iff_iff.2 e1
  · intro hf β hb p
    obtain ⟨β', g1, g2⟩ := extend (n0 := s.nextLit) (by omega) β (δ β)
    exact c.conflict hf β' (ho.loc _ _ g1 hb)
      ((hp β' (ho.loc _ _ g1 hb)).mpr ⟨hP _ _ g1 p, fun i _ => by rw [g2 i]; exact hδ _ _ g1 i⟩)

theorem wsum_perm {σ : Nat → Int} {l l' : List (Int × Nat)} (h : l.Perm l') : wsum σ l = wsum σ l' := (h.map _).sum_eq

theorem linVal_valid {σ : Nat → Int} {l : List (Int × Nat)} (h : ∀ e ∈ l, e.2 < 4294967295) : linVal σ l = wsum σ l := by
  unfold linVal wsum
  congr 1
  apply List.map_congr_left
  intro e he
  unfold linDen
  rw [if_pos (h e he)]

theorem pInv_ok {l r : List (Int × Nat)} (h : pInv l = .ok r) : ∀ σ : Nat → Int, wsum σ r = - wsum σ l := by
  induction l generalizing r with
  | nil => injection h with h; subst h; intro σ; rfl
  | cons e l ih =>
    unfold pInv at h
    obtain ⟨c, h1, h⟩ := bind_ok h
    obtain ⟨r', h2, h⟩ := bind_ok h
    have h := pure_ok h
    subst h
    obtain ⟨rfl, -⟩ := safeInv_ok h1
    intro σ
    rw [wsum_cons, wsum_cons, ih h2 σ]
    ring

theorem attached_loc {n : Int} {lit : Int} {strict : Bool} {Q : Prop} (hl : |lit| < n) : LocalP n (fun β => attached β lit strict Q) := by
  intro β β' ha h
  unfold attached at *
  rwa [litTrue_congr ha hl] at h

theorem pspec_addConstraint {Base : (Nat → Bool) → Prop} {s s' : PState} {b : Bool} {lit : Int} {elems : List (Int × Nat)} {rhs : Int} {strict : Bool}
    (ho : POracle env τ s.log s.nextLit Base) (h0 : lit ≠ 0) (hl : |lit| < s.nextLit)
    (h : bAddConstraint env lit elems rhs strict s = .ok (b, s')) : PSpec τ Base s b s' (fun β => attached β lit strict (wsum τ elems ≤ rhs)) ∧ s'.nextLit = s.nextLit := by
  unfold bAddConstraint at h
  obtain ⟨t, s1, k1, h⟩ := bindP_ok h
  obtain ⟨rfl, rfl⟩ := pValue_ok k1
  have hsum : ∀ (l : Int) (r : Int) (es : List (Int × Nat)), |l| < s1.nextLit → ∀ u s', pCon (.sum l r (env.sort es)) s1 = .ok (u, s') →
      PSpec τ Base s1 true s' (fun β => attached β l false (wsum τ es ≤ r)) ∧ s'.nextLit = s1.nextLit := by
    intro l r es hl u s' hh
    refine ⟨(pspec_con (c := .sum l r (env.sort es)) hl hh).congr ?_, ?_⟩
    · intro β _
      show (litTrue β l → wsum τ (env.sort es) ≤ r) ↔ _
      rw [wsum_perm (ho.sort es)]
      simp [attached]
    · unfold pCon at hh; injection hh with hh; injection hh with h1 h2; subst h2; rfl
  by_cases hf : (!strict && env.value s1.log lit == some false) = true
  · rw [if_pos hf] at h
    obtain ⟨rfl, rfl⟩ := pureP_ok h
    rw [Bool.and_eq_true, Bool.not_eq_true', beq_iff_eq] at hf
    refine ⟨(pspec_true Base s1).congr fun β hb => ?_, rfl⟩
    have := ho.litval hf.2 hb
    rw [hf.1]
    simp [attached, this]
  · rw [if_neg hf] at h
    split at h
    · rename_i co var
      refine ⟨(pspec_post ho ?_ h).congr ?_, ?_⟩
      · exact attached_loc hl
      · intro β _; simp [pholds, wsum]
      · unfold pPost at h; injection h with h; injection h with h1 h2; subst h2; rfl
    · obtain ⟨u, s2, k2, h⟩ := bindP_ok h
      obtain ⟨g1, g1n⟩ := hsum lit rhs elems hl u s2 k2
      cases strict with
      | false =>
        rw [if_neg (by simp)] at h
        obtain ⟨rfl, rfl⟩ := pureP_ok h
        exact ⟨g1, g1n⟩
      | true =>
        rw [if_pos rfl] at h
        obtain ⟨ie, j1, h⟩ := liftP_ok h
        obtain ⟨r1, j2, h⟩ := liftP_ok h
        obtain ⟨r2, j3, h⟩ := liftP_ok h
        obtain ⟨u', s3, j4, h⟩ := bindP_ok h
        obtain ⟨rfl, rfl⟩ := pureP_ok h
        obtain ⟨rfl, -⟩ := safeAdd_ok j2
        obtain ⟨rfl, -⟩ := safeInv_ok j3
        have hn3 : s3.nextLit = s1.nextLit := by
          unfold pCon at j4; injection j4 with j4; injection j4 with h1 h2; subst h2; exact g1n
        refine ⟨(pspec_seq ho (P2 := fun β => attached β (-lit) false (wsum τ ie ≤ -(rhs + 1))) (attached_loc (by rwa [abs_neg])) g1 ?_).1.congr ?_, hn3⟩
        · intro Base' _ ho'
          have := pspec_con (τ := τ) (Base := Base') (c := .sum (-lit) (-(rhs + 1)) (env.sort ie)) (by show |(-lit)| < _; rw [abs_neg, g1n]; exact hl) j4
          refine this.congr fun β _ => ?_
          show (litTrue β (-lit) → wsum τ (env.sort ie) ≤ _) ↔ _
          rw [wsum_perm (ho.sort ie)]
          simp [attached]
        · intro β _
          rw [pInv_ok j1 τ]
          simp only [attached, litTrue_neg β lit h0, Bool.false_eq_true, if_false, if_true]
          by_cases hh : litTrue β lit <;> simp [hh] <;> omega


theorem negAll_ok : ∀ {l r : List (Int × Nat)}, l.mapM (fun e => do let c ← pVal (-e.1); return (c, e.2)) = .ok r →
    r = l.map (fun e => (-e.1, e.2))
  | [], r, h => by rw [List.mapM_nil] at h; exact (pure_ok h).symm
  | e :: l, r, h => by
    rw [List.mapM_cons] at h
    obtain ⟨a, h1, h⟩ := bind_ok h
    obtain ⟨c, h2, h1⟩ := bind_ok h1
    obtain ⟨r', h3, h⟩ := bind_ok h
    obtain ⟨rfl, -⟩ := machine_ok h2
    have h1 := pure_ok h1
    have h := pure_ok h
    rw [← h, ← h1, negAll_ok h3]
    rfl

theorem wsum_negAll (σ : Nat → Int) : ∀ l : List (Int × Nat), wsum σ (l.map (fun e => (-e.1, e.2))) = - wsum σ l
  | [] => rfl
  | e :: l => by rw [List.map_cons, wsum_cons, wsum_cons, wsum_negAll σ l]; ring

theorem local_and {n : Int} {P Q : (Nat → Bool) → Prop} (h1 : LocalP n P) (h2 : LocalP n Q) : LocalP n (fun β => P β ∧ Q β) :=
  fun β β' ha h => ⟨h1 β β' ha h.1, h2 β β' ha h.2⟩

theorem local_mono {n n' : Int} {P : (Nat → Bool) → Prop} (h1 : LocalP n P) (h : n ≤ n') : LocalP n' P :=
  fun β β' ha => h1 β β' (fun k hk => ha k (lt_of_lt_of_le hk h))

theorem local_clause {n : Int} {c : List Int} (h : ∀ l ∈ c, |l| < n) : LocalP n (fun β => pholds β τ (.clause c)) := by
  rintro β β' ha ⟨l, h1, h2⟩
  exact ⟨l, h1, (litTrue_congr ha (h l h1)).mp h2⟩

theorem check_ok {x r : Int} (h : checkValidValue x = .ok r) : r = x := by
  unfold checkValidValue at h
  split_ifs at h
  injection h with h
  exact h.symm

theorem pspec_pairCons {Base : (Nat → Bool) → Prop} {s s' : PState} {ok : Bool} {a b : Int} {elems : List (Int × Nat)} {rhs : Int}
    (ho : POracle env τ s.log s.nextLit Base) (ha : a ≠ 0) (hb : b ≠ 0) (la : |a| < s.nextLit) (lb : |b| < s.nextLit)
    (h : bPairCons env elems rhs a b s = .ok (ok, s')) :
    PSpec τ Base s ok s' (fun β => (litTrue β a → wsum τ elems < rhs) ∧ (litTrue β b → wsum τ elems > rhs)) := by
  unfold bPairCons at h
  obtain ⟨r1, h1, h⟩ := liftP_ok h
  obtain ⟨r1', h2, h1⟩ := bind_ok h1
  obtain ⟨rfl, -⟩ := machine_ok h2
  have := check_ok h1
  subst this
  refine (pspec_and ho (P1 := fun β => attached β a false (wsum τ elems ≤ rhs - 1)) (P2 := fun β => attached β b false (- wsum τ elems ≤ -rhs - 1))
    (attached_loc lb) h (fun b1 s1 k1 => (pspec_addConstraint ho ha la k1).1) ?_).congr ?_
  · intro s1 Base' hm hB ho' k2
    obtain ⟨ne, g1, k2⟩ := liftP_ok k2
    obtain ⟨n, g2, k2⟩ := liftP_ok k2
    obtain ⟨r2, g3, k2⟩ := liftP_ok k2
    obtain ⟨r2', g4, g3⟩ := bind_ok g3
    obtain ⟨rfl, -⟩ := machine_ok g2
    obtain ⟨rfl, -⟩ := machine_ok g4
    have := check_ok g3
    subst this
    have := negAll_ok g1
    subst this
    have := (pspec_addConstraint ho' hb (lt_of_lt_of_le lb hm) k2).1
    rwa [wsum_negAll] at this
  · intro β _
    simp only [attached, Bool.false_eq_true, if_false]
    refine and_congr (imp_congr_right fun _ => ?_) (imp_congr_right fun _ => ?_) <;> omega

theorem pspec_pairLits {Base : (Nat → Bool) → Prop} {s s' : PState} {ok : Bool} {lit : Int} {elems : List (Int × Nat)} {rhs : Int}
    (ho : POracle env τ s.log s.nextLit Base) (h0 : lit ≠ 0) (hl : |lit| < s.nextLit) {truth : Option Bool}
    (ht : truth = some true → ∀ β, Base β → litTrue β lit)
    (h : bPairLits env lit truth (bPairCons env elems rhs) s = .ok (ok, s')) :
    PSpec τ Base s ok s' (fun β => litTrue β lit → wsum τ elems ≠ rhs) := by
  have hpos := ho.pos
  have hloc : LocalP s.nextLit (fun β => litTrue β lit → wsum τ elems ≠ rhs) := by
    intro β β' ha hh hk
    exact hh ((litTrue_congr ha hl).mpr hk)
  have aabs : |s.nextLit| = s.nextLit := abs_of_pos (by omega)
  unfold bPairLits at h
  obtain ⟨a, s1, k1, h⟩ := bindP_ok h
  unfold pLit at k1
  injection k1 with k1
  injection k1 with e1 e2
  subst e1 e2
  by_cases hT : truth = some true
  · rw [if_pos (by simp [hT])] at h
    have ho1 : POracle env τ s.log (s.nextLit + 1) Base := ho.grow (by omega)
    have g := pspec_pairCons (s := { s with nextLit := s.nextLit + 1 }) ho1 (by omega) (by omega) (by dsimp only; omega) (by dsimp only; rw [abs_neg]; omega) h
    refine pspec_fresh 1 (fun _ _ => wsum τ elems < rhs) ho hloc (fun _ _ _ _ => Iff.rfl) g ?_
    intro β hb
    have e := ht hT β hb
    have : ∀ Q : Nat → Prop, (∀ i < 1, Q i) ↔ Q 0 := fun Q => ⟨fun h => h 0 (by omega), fun h i hi => by rwa [show i = 0 by omega]⟩
    rw [this, litTrue_neg β _ (by omega)]
    simp only [e, true_imp_iff, Nat.cast_zero, add_zero]
    by_cases hh : litTrue β s.nextLit <;> simp [hh] <;> omega
  · rw [if_neg (by simpa using hT)] at h
    obtain ⟨b, s2, k2, h⟩ := bindP_ok h
    unfold pLit at k2
    injection k2 with k2
    injection k2 with e1 e2
    subst e1 e2
    dsimp only at h
    have ho2 : POracle env τ s.log (s.nextLit + 2) Base := ho.grow (by omega)
    have babs : |s.nextLit + 1| = s.nextLit + 1 := abs_of_pos (by omega)
    have lc : LocalP (s.nextLit + 2) (fun β => (litTrue β s.nextLit → wsum τ elems < rhs) ∧ (litTrue β (s.nextLit + 1) → wsum τ elems > rhs)) := by
      intro β β' ha hh
      rwa [litTrue_congr ha (by omega), litTrue_congr ha (by omega)] at hh
    have l1 : ∀ l ∈ [s.nextLit, s.nextLit + 1, -lit], |l| < s.nextLit + 2 := by
      simp only [List.mem_cons, List.not_mem_nil, or_false, forall_eq_or_imp, forall_eq, abs_neg]; omega
    have l2 : ∀ l ∈ [-s.nextLit, -(s.nextLit + 1)], |l| < s.nextLit + 2 := by
      simp only [List.mem_cons, List.not_mem_nil, or_false, forall_eq_or_imp, forall_eq, abs_neg]; omega
    have l3 : ∀ l ∈ [lit, -s.nextLit], |l| < s.nextLit + 2 := by
      simp only [List.mem_cons, List.not_mem_nil, or_false, forall_eq_or_imp, forall_eq, abs_neg]; omega
    have l4 : ∀ l ∈ [lit, -(s.nextLit + 1)], |l| < s.nextLit + 2 := by
      simp only [List.mem_cons, List.not_mem_nil, or_false, forall_eq_or_imp, forall_eq, abs_neg]; omega
    have lc4 := local_and (local_clause (τ := τ) l4) lc
    have lc3 := local_and (local_clause (τ := τ) l3) lc4
    have lc2 := local_and (local_clause (τ := τ) l2) lc3
    have g : PSpec τ Base { s with nextLit := s.nextLit + 2 } ok s' (fun β => pholds β τ (.clause [s.nextLit, s.nextLit + 1, -lit]) ∧
        pholds β τ (.clause [-s.nextLit, -(s.nextLit + 1)]) ∧ pholds β τ (.clause [lit, -s.nextLit]) ∧ pholds β τ (.clause [lit, -(s.nextLit + 1)]) ∧
        (litTrue β s.nextLit → wsum τ elems < rhs) ∧ (litTrue β (s.nextLit + 1) → wsum τ elems > rhs)) := by
      refine pspec_and (s := { s with nextLit := s.nextLit + 2 }) ho2 lc2 (by rw [add_assoc] at h; exact h) (fun b1 s1 k => pspec_post ho2 (local_clause l1) k) ?_
      intro s3 B3 m3 _ ho3 h
      dsimp only at m3
      refine pspec_and ho3 (local_mono lc3 m3) h (fun b1 s1 k => pspec_post ho3 (local_mono (local_clause l2) m3) k) ?_
      intro s4 B4 m4 _ ho4 h
      have m4 := le_trans m3 m4
      refine pspec_and ho4 (local_mono lc4 m4) h (fun b1 s1 k => pspec_post ho4 (local_mono (local_clause l3) m4) k) ?_
      intro s5 B5 m5 _ ho5 h
      have m5 := le_trans m4 m5
      refine pspec_and ho5 (local_mono lc m5) h (fun b1 s1 k => pspec_post ho5 (local_mono (local_clause l4) m5) k) ?_
      intro s6 B6 m6 _ ho6 h
      have m6 := le_trans m5 m6
      exact pspec_pairCons ho6 (by omega) (by omega) (by omega) (by omega) h
    refine pspec_fresh 2 (fun β i => litTrue β lit ∧ if i = 0 then wsum τ elems < rhs else wsum τ elems > rhs) ho hloc ?_ g ?_
    · intro β β' ha i
      rw [litTrue_congr ha hl]
    · intro β hb
      have : ∀ Q : Nat → Prop, (∀ i < 2, Q i) ↔ Q 0 ∧ Q 1 := fun Q => ⟨fun h => ⟨h 0 (by omega), h 1 (by omega)⟩, fun h i hi => by
        rcases (show i = 0 ∨ i = 1 by omega) with rfl | rfl
        exacts [h.1, h.2]⟩
      rw [this]
      simp only [pholds, List.mem_cons, List.not_mem_nil, or_false, exists_eq_or_imp, exists_eq_left, litTrue_neg β lit h0,
        litTrue_neg β s.nextLit (by omega), litTrue_neg β (s.nextLit + 1) (by omega), Nat.cast_zero, add_zero, Nat.cast_one, if_true, one_ne_zero, if_false]
      have hx : (wsum τ elems ≠ rhs) ↔ (wsum τ elems < rhs ∨ wsum τ elems > rhs) := by omega
      have hy : ¬ (wsum τ elems < rhs ∧ wsum τ elems > rhs) := by omega
      rw [hx]
      revert hy
      generalize (wsum τ elems < rhs) = X
      generalize (wsum τ elems > rhs) = Y
      generalize litTrue β lit = L
      generalize litTrue β s.nextLit = A
      generalize litTrue β (s.nextLit + 1) = B
      clear * -
      intro hy
      by_cases hl : L <;> by_cases hA : A <;> by_cases hB : B <;> by_cases hX : X <;> by_cases hY : Y <;> simp_all

/-- The outcome of a part of a loop: if the loop is left with a result, then independently of the rest `Q`. -/
def LoopSpec (τ : Nat → Int) (Base : (Nat → Bool) → Prop) (s : PState) (r : Option Bool) (s' : PState) (lit : Int) (p : Prop) : Prop :=
  match r with
  | none => PSpec τ Base s true s' (fun β => litTrue β lit → p)
  | some b => ∀ Q : Prop, PSpec τ Base s b s' (fun β => litTrue β lit → p ∧ Q)

theorem local_imp {n : Int} {lit : Int} {p : Prop} (hl : |lit| < n) : LocalP n (fun β => litTrue β lit → p) := by
  intro β β' ha hh hk
  exact hh ((litTrue_congr ha hl).mpr hk)

theorem pspec_pair {Base : (Nat → Bool) → Prop} {s s' : PState} {r : Option Bool} {lit : Int} {x y : List (Int × Nat) × Int}
    (ho : POracle env τ s.log s.nextLit Base) (h0 : lit ≠ 0) (hl : |lit| < s.nextLit) {truth : Option Bool}
    (ht : truth = some true → ∀ β, Base β → litTrue β lit) (hx : ∀ t ∈ x.1, t.2 < 4294967295) (hy : ∀ t ∈ y.1, t.2 < 4294967295)
    (h : bPair env lit truth x y s = .ok (r, s')) : LoopSpec τ Base s r s' lit (wsum τ x.1 + x.2 ≠ wsum τ y.1 + y.2) := by
  unfold bPair at h
  obtain ⟨r0, h1, hA⟩ := liftP_ok h
  obtain ⟨ny, h2, hB⟩ := liftP_ok hA
  obtain ⟨⟨out, c⟩, h3, hC⟩ := liftP_ok hB
  clear h hA hB
  obtain ⟨rhs, h4, h⟩ := liftP_ok hC
  clear hC
  obtain ⟨rfl, -⟩ := machine_ok h1
  obtain ⟨rfl, -⟩ := machine_ok h4
  have := negAll_ok h2
  subst this
  have hs := Props.C06_value _ _ _ _ h3 τ
  obtain ⟨-, -, hv, -, -⟩ := Props.C06_shape _ _ _ _ h3
  have e1 : linVal τ (x.1 ++ y.1.map (fun e => (-e.1, e.2))) = wsum τ x.1 - wsum τ y.1 := by
    rw [linVal_valid (by
      intro e he
      rcases List.mem_append.mp he with he | he
      · exact hx e he
      · obtain ⟨t, ht, rfl⟩ := List.mem_map.mp he
        exact hy t ht), wsum_append, wsum_negAll]
    omega
  rw [e1, linVal_valid (fun e he => (hv e he).1)] at hs
  have key : (wsum τ x.1 + x.2 ≠ wsum τ y.1 + y.2) ↔ wsum τ out ≠ y.2 - x.2 + c := by omega
  have exit : ∀ (b : Bool), PSpec τ Base s b s' (fun β => ¬ litTrue β lit) → (∀ β, Base β → ((litTrue β lit → wsum τ out ≠ y.2 - x.2 + c) → ¬ litTrue β lit)) →
      ∀ Q : Prop, PSpec τ Base s b s' (fun β => litTrue β lit → (wsum τ x.1 + x.2 ≠ wsum τ y.1 + y.2) ∧ Q) := by
    intro b hb1 hb2 Q
    refine hb1.congr fun β hb => ?_
    rw [key]
    constructor
    · exact fun h1 h2 => absurd h2 h1
    · exact fun h1 => hb2 β hb (fun h2 => (h1 h2).1)
  by_cases he : out.isEmpty = true
  · rw [if_pos he] at h
    have : out = [] := List.isEmpty_iff.mp he
    subst this
    by_cases hr : y.2 - x.2 + c = 0
    · rw [if_pos hr] at h
      obtain ⟨b, s1, k1, h⟩ := bindP_ok h
      obtain ⟨rfl, rfl⟩ := pureP_ok h
      refine exit b ?_ ?_
      · refine (pspec_post ho (local_clause (by simpa using hl)) k1).congr fun β _ => ?_
        simp [pholds, litTrue_neg β lit h0]
      · intro β _ h1 h2
        exact h1 h2 (by rw [hr]; rfl)
    · rw [if_neg hr] at h
      obtain ⟨rfl, rfl⟩ := pureP_ok h
      refine (pspec_true Base s).congr fun β _ => ?_
      rw [key, show wsum τ ([] : List (Int × Nat)) = 0 from rfl]
      simp only [true_iff]
      intro _
      omega
  · rw [if_neg he] at h
    obtain ⟨b, s1, k1, h⟩ := bindP_ok h
    obtain ⟨rfl, rfl⟩ := pureP_ok h
    have g := pspec_pairLits ho h0 hl ht k1
    cases b with
    | true =>
      refine g.congr fun β _ => ?_
      rw [key]
    | false =>
      intro Q
      obtain ⟨new, e, cc⟩ := g
      have nc := cc.conflict rfl
      refine ⟨new, e, cc.mono, ?_, ?_, cc.unique, cc.locality, ?_⟩
      · exact fun β hb p => absurd (fun h => key.mp (p h).1) (nc β hb)
      · exact fun β hb k => absurd (cc.complete β hb k) (nc β hb)
      · exact fun _ β hb p => nc β hb (fun h => key.mp (p h).1)

theorem pspec_none {Base : (Nat → Bool) → Prop} {s : PState} {p : Prop} (lit : Int) (hp : p) :
    PSpec τ Base s true s (fun β => litTrue β lit → p) :=
  (pspec_true Base s).congr fun β _ => by simp [hp]

theorem loop_seq {Base : (Nat → Bool) → Prop} {s s1 s' : PState} {r : Option Bool} {lit : Int} {p1 p2 p : Prop}
    (ho : POracle env τ s.log s.nextLit Base) (hl : |lit| < s.nextLit) (h1 : PSpec τ Base s true s1 (fun β => litTrue β lit → p1))
    (h2 : ∀ Base', s.nextLit ≤ s1.nextLit → (∀ β, Base' β → Base β ∧ (litTrue β lit → p1)) → POracle env τ s1.log s1.nextLit Base' → LoopSpec τ Base' s1 r s' lit p2)
    (hp : p ↔ p1 ∧ p2) : LoopSpec τ Base s r s' lit p := by
  have hm : s.nextLit ≤ s1.nextLit := by obtain ⟨new, e, c⟩ := h1; exact c.mono
  cases r with
  | none =>
    refine (pspec_seq ho (P2 := fun β => litTrue β lit → p2) (local_imp hl) h1 (fun B' hb ho' => h2 B' hm hb ho')).1.congr ?_
    intro β _
    rw [hp]
    by_cases hh : litTrue β lit <;> simp [hh]
  | some b =>
    intro Q
    refine (pspec_seq ho (P2 := fun β => litTrue β lit → p2 ∧ Q) (local_imp hl) h1 (fun B' hb ho' => h2 B' hm hb ho' Q)).1.congr ?_
    intro β _
    rw [hp]
    by_cases hh : litTrue β lit <;> simp [hh, and_assoc]

theorem pspec_pairs {lit : Int} (h0 : lit ≠ 0) {truth : Option Bool} {x : List (Int × Nat) × Int} (hx : ∀ t ∈ x.1, t.2 < 4294967295) :
    ∀ (ys : List (List (Int × Nat) × Int)) {Base : (Nat → Bool) → Prop} {s s' : PState} {r : Option Bool},
    (∀ y ∈ ys, ∀ t ∈ y.1, t.2 < 4294967295) → POracle env τ s.log s.nextLit Base → |lit| < s.nextLit →
    (truth = some true → ∀ β, Base β → litTrue β lit) → bPairs env lit truth x ys s = .ok (r, s') →
    LoopSpec τ Base s r s' lit (∀ y ∈ ys, wsum τ x.1 + x.2 ≠ wsum τ y.1 + y.2)
  | [], Base, s, s', r, hy, ho, hl, ht, h => by
    obtain ⟨rfl, rfl⟩ := pureP_ok h
    exact pspec_none lit (by simp)
  | y :: ys, Base, s, s', r, hy, ho, hl, ht, h => by
    unfold bPairs at h
    obtain ⟨r1, s1, k1, h⟩ := bindP_ok h
    have g := pspec_pair ho h0 hl ht hx (hy y List.mem_cons_self) k1
    have e : (∀ z ∈ y :: ys, wsum τ x.1 + x.2 ≠ wsum τ z.1 + z.2) ↔
        (wsum τ x.1 + x.2 ≠ wsum τ y.1 + y.2) ∧ ∀ z ∈ ys, wsum τ x.1 + x.2 ≠ wsum τ z.1 + z.2 := List.forall_mem_cons
    cases r1 with
    | some b =>
      obtain ⟨rfl, rfl⟩ := pureP_ok h
      intro Q
      have := g ((∀ z ∈ ys, wsum τ x.1 + x.2 ≠ wsum τ z.1 + z.2) ∧ Q)
      rw [e, and_assoc]
      exact this
    | none =>
      exact loop_seq ho hl g (fun B' hm hb ho' => pspec_pairs h0 hx ys (fun z hz => hy z (List.mem_cons_of_mem _ hz)) ho'
        (lt_of_lt_of_le hl hm) (fun hT β hβ => ht hT β (hb β hβ).1) h) e

theorem pspec_allPairs {lit : Int} (h0 : lit ≠ 0) {truth : Option Bool} :
    ∀ (xs : List (List (Int × Nat) × Int)) {Base : (Nat → Bool) → Prop} {s s' : PState} {b : Bool},
    (∀ y ∈ xs, ∀ t ∈ y.1, t.2 < 4294967295) → POracle env τ s.log s.nextLit Base → |lit| < s.nextLit →
    (truth = some true → ∀ β, Base β → litTrue β lit) → bAllPairs env lit truth xs s = .ok (b, s') →
    PSpec τ Base s b s' (fun β => litTrue β lit → xs.Pairwise (fun x y => wsum τ x.1 + x.2 ≠ wsum τ y.1 + y.2))
  | [], Base, s, s', r, hy, ho, hl, ht, h => by
    obtain ⟨rfl, rfl⟩ := pureP_ok h
    exact pspec_none lit (by simp)
  | x :: xs, Base, s, s', b, hy, ho, hl, ht, h => by
    unfold bAllPairs at h
    obtain ⟨r1, s1, k1, h⟩ := bindP_ok h
    have g := pspec_pairs h0 (hy x List.mem_cons_self) xs (fun z hz => hy z (List.mem_cons_of_mem _ hz)) ho hl ht k1
    cases r1 with
    | some b =>
      obtain ⟨rfl, rfl⟩ := pureP_ok h
      refine (g (xs.Pairwise (fun x y => wsum τ x.1 + x.2 ≠ wsum τ y.1 + y.2))).congr fun β _ => ?_
      rw [List.pairwise_cons]
    | none =>
      have hm : s.nextLit ≤ s1.nextLit := by obtain ⟨new, e, c⟩ := g; exact c.mono
      refine (pspec_seq ho (local_imp hl) g (fun B' hb ho' => pspec_allPairs h0 xs (fun z hz => hy z (List.mem_cons_of_mem _ hz)) ho'
        (lt_of_lt_of_le hl hm) (fun hT β hβ => ht hT β (hb β hβ).1) h)).1.congr fun β _ => ?_
      rw [List.pairwise_cons]
      by_cases hh : litTrue β lit <;> simp [hh]

theorem pspec_addDistinct {Base : (Nat → Bool) → Prop} {s s' : PState} {b : Bool} {lit : Int} {elems : List (List (Int × Nat) × Int)}
    (ho : POracle env τ s.log s.nextLit Base) (h0 : lit ≠ 0) (hl : |lit| < s.nextLit) (he : ∀ e ∈ elems, ∀ t ∈ e.1, t.2 < 4294967295)
    (h : bAddDistinct env lit elems s = .ok (b, s')) :
    PSpec τ Base s b s' (fun β => litTrue β lit → pairwiseNe (elems.map (fun e => wsum τ e.1 + e.2))) := by
  unfold bAddDistinct at h
  obtain ⟨t, s1, k1, h⟩ := bindP_ok h
  obtain ⟨rfl, rfl⟩ := pValue_ok k1
  by_cases hf : env.value s1.log lit = some false
  · rw [if_pos (by simp [hf])] at h
    obtain ⟨rfl, rfl⟩ := pureP_ok h
    refine (pspec_true Base s1).congr fun β hb => ?_
    have := ho.litval hf hb
    simp [this]
  · rw [if_neg (by simpa using hf)] at h
    by_cases hlen : elems.length > 2
    · rw [if_pos hlen] at h
      obtain ⟨u, s2, k2, h⟩ := bindP_ok h
      obtain ⟨rfl, rfl⟩ := pureP_ok h
      refine (pspec_con (by exact hl) k2).congr fun β _ => ?_
      show (litTrue β lit → pairwiseNe (List.map _ (elems.map _))) ↔ _
      rw [List.map_map]
      have : ((fun e : List (Int × Nat) × Int => wsum τ e.1 + e.2) ∘ fun e : List (Int × Nat) × Int => (env.sort e.1, e.2)) = fun e : List (Int × Nat) × Int => wsum τ e.1 + e.2 := by
        funext e
        show wsum τ (env.sort e.1) + e.2 = _
        rw [wsum_perm (ho.sort e.1)]
      rw [this]
    · rw [if_neg hlen] at h
      refine (pspec_allPairs h0 elems he ho hl (fun hT β hb => (ho.litval hT hb).mpr rfl) h).congr fun β _ => ?_
      unfold pairwiseNe
      rw [List.pairwise_map]

theorem pspec_addNonlinear {Base : (Nat → Bool) → Prop} {s s' : PState} {ok : Bool} {lit : Int} {coab coc : Int} {a b c : Nat} {rhs : Int} {strict : Bool}
    (ho : POracle env τ s.log s.nextLit Base) (h0 : lit ≠ 0) (hl : |lit| < s.nextLit) (hs : strict = true → coab = 0)
    (h : bAddNonlinear env lit coab a b coc c rhs strict s = .ok (ok, s')) :
    PSpec τ Base s ok s' (fun β => attached β lit strict (coab * (τ a * τ b) + coc * τ c ≤ rhs)) := by
  unfold bAddNonlinear at h
  by_cases hc : coab = 0
  · rw [if_pos hc] at h
    refine (pspec_addConstraint ho h0 hl h).1.congr fun β _ => ?_
    subst hc
    by_cases hz : coc = 0
    · subst hz; simp [wsum]
    · rw [if_pos hz]; simp [wsum]
  · rw [if_neg hc] at h
    obtain ⟨u, s2, k2, h⟩ := bindP_ok h
    have : strict = false := by
      cases strict
      · rfl
      · exact absurd (hs rfl) hc
    subst this
    rw [if_neg (by simp)] at h
    obtain ⟨rfl, rfl⟩ := pureP_ok h
    refine (pspec_con (by exact hl) k2).congr fun β _ => ?_
    simp [attached, conHolds, Constr.lit]

theorem pspec_addDom {Base : (Nat → Bool) → Prop} {s s' : PState} {b : Bool} {lit : Int} {v : Nat} {elems : List (Int × Int)}
    (ho : POracle env τ s.log s.nextLit Base) (h0 : lit ≠ 0) (hl : |lit| < s.nextLit)
    (h : bAddDom env lit v elems s = .ok (b, s')) :
    PSpec τ Base s b s' (fun β => litTrue β lit → ∃ i ∈ elems, i.1 ≤ τ v ∧ τ v < i.2) := by
  unfold bAddDom at h
  obtain ⟨t, s1, k1, h⟩ := bindP_ok h
  obtain ⟨rfl, rfl⟩ := pValue_ok k1
  by_cases hf : env.value s1.log lit = some false
  · rw [if_pos (by simp [hf])] at h
    obtain ⟨rfl, rfl⟩ := pureP_ok h
    refine (pspec_true Base s1).congr fun β hb => ?_
    have := ho.litval hf hb
    simp [this]
  · rw [if_neg (by simpa using hf)] at h
    exact pspec_post (e := .dom lit v elems) ho (local_imp hl) h

theorem disjointPrep_ok {i j : Nat} {rhs : Int} {r : Int × List (Int × Nat) × Int} (hi : i < 4294967295) (hj : j < 4294967295)
    (h : bDisjointPrep i j rhs = .ok r) :
    (r.1 = 0 ∧ (wsum τ r.2.1 ≤ r.2.2 ↔ τ i - τ j ≤ rhs)) ∨ (r.1 = TRUE_LIT ∧ τ i - τ j ≤ rhs) ∨ (r.1 = -TRUE_LIT ∧ ¬ τ i - τ j ≤ rhs) := by
  unfold bDisjointPrep at h
  obtain ⟨⟨out, c⟩, h1, hA⟩ := bind_ok h
  obtain ⟨r', h2, h3⟩ := bind_ok hA
  clear h hA
  have h3 := pure_ok h3
  subst h3
  obtain ⟨rfl, -⟩ := machine_ok h2
  have hs := Props.C06_value _ _ _ _ h1 τ
  obtain ⟨-, -, hv, -, -⟩ := Props.C06_shape _ _ _ _ h1
  rw [linVal_valid (fun e he => (hv e he).1), linVal_valid (by
    simp only [List.mem_cons, List.not_mem_nil, or_false, forall_eq_or_imp, forall_eq]; exact ⟨hi, hj⟩)] at hs
  have e : wsum τ [(1, i), (-1, j)] = τ i - τ j := by simp [wsum]; ring
  rw [e] at hs
  dsimp only
  by_cases he : out.isEmpty = true
  · rw [if_pos he]
    have : out = [] := List.isEmpty_iff.mp he
    subst this
    rw [show wsum τ ([] : List (Int × Nat)) = 0 from rfl] at hs
    by_cases hr : rhs + c ≥ 0
    · rw [if_pos hr]; exact Or.inr (Or.inl ⟨rfl, by omega⟩)
    · rw [if_neg hr]; exact Or.inr (Or.inr ⟨rfl, by omega⟩)
  · rw [if_neg he]
    exact Or.inl ⟨rfl, by omega⟩

theorem pspec_disjointLit {Base : (Nat → Bool) → Prop} {s s' : PState} {b : Bool} {l rhs : Int} {elems : List (Int × Nat)} {k : Int → PM Bool} {q : Prop}
    {P : (Nat → Bool) → Prop} (ho : POracle env τ s.log s.nextLit Base) (hP : LocalP s.nextLit P)
    (hc : (l = 0 ∧ (wsum τ elems ≤ rhs ↔ q)) ∨ (l = TRUE_LIT ∧ q))
    (h : bDisjointLit env l elems rhs k s = .ok (b, s'))
    (hk : ∀ la s1 Base', s.nextLit ≤ s1.nextLit → (∀ β, Base' β → Base β ∧ (litTrue β la ↔ q)) → la ≠ 0 → |la| < s1.nextLit →
      POracle env τ s1.log s1.nextLit Base' → k la s1 = .ok (b, s') → PSpec τ Base' s1 b s' P) : PSpec τ Base s b s' P := by
  have hpos := ho.pos
  unfold bDisjointLit at h
  rcases hc with ⟨rfl, hc⟩ | ⟨rfl, hc⟩
  · rw [if_pos rfl] at h
    obtain ⟨a, s1, k1, h⟩ := bindP_ok h
    unfold pLit at k1
    injection k1 with k1
    injection k1 with e1 e2
    subst e1 e2
    have aabs : |s.nextLit| = s.nextLit := abs_of_pos (by omega)
    have ho1 : POracle env τ s.log (s.nextLit + 1) Base := ho.grow (by omega)
    have g : PSpec τ Base { s with nextLit := s.nextLit + 1 } b s' (fun β => attached β s.nextLit true (wsum τ elems ≤ rhs) ∧ P β) := by
      refine pspec_and (s := { s with nextLit := s.nextLit + 1 }) ho1 (local_mono hP (by dsimp only; omega)) h
        (fun b1 s1 k => (pspec_addConstraint ho1 (by omega) (by dsimp only; omega) k).1) ?_
      intro s2 B2 m2 hb2 ho2 k2
      dsimp only at m2
      refine hk s.nextLit s2 B2 (by omega) (fun β hb => ⟨(hb2 β hb).1, ?_⟩) (by omega) (by omega) ho2 k2
      rw [← hc]
      exact (hb2 β hb).2
    refine pspec_fresh 1 (fun _ _ => q) ho hP (fun _ _ _ _ => Iff.rfl) g ?_
    intro β hb
    have : ∀ Q : Nat → Prop, (∀ i < 1, Q i) ↔ Q 0 := fun Q => ⟨fun h => h 0 (by omega), fun h i hi => by rwa [show i = 0 by omega]⟩
    rw [this, Nat.cast_zero, add_zero, and_comm, hc]
    simp [attached]
  · rw [if_neg (by decide)] at h
    refine hk TRUE_LIT s Base (le_refl _) (fun β hb => ⟨hb, ?_⟩) (by decide) (by show |(1 : Int)| < _; rw [abs_one]; omega) ho h
    simp only [hc, iff_true]
    exact ho.tt β hb

theorem pspec_disjointPair {Base : (Nat → Bool) → Prop} {s s' : PState} {b : Bool} {lit : Int} {i j : Int × Nat}
    (ho : POracle env τ s.log s.nextLit Base) (h0 : lit ≠ 0) (hl : |lit| < s.nextLit) (hi : i.2 < 4294967295) (hj : j.2 < 4294967295)
    (h : bDisjointPair env lit i j s = .ok (b, s')) :
    PSpec τ Base s b s' (fun β => litTrue β lit → ¬ (τ j.2 ≤ τ i.2 ∧ τ i.2 < τ j.2 + j.1)) := by
  unfold bDisjointPair at h
  by_cases hw : i.1 > 0 ∧ j.1 > 0
  swap
  · rw [if_pos hw] at h; cases h
  rw [if_neg (by simpa using hw)] at h
  obtain ⟨ra, h1, hA⟩ := liftP_ok h
  clear h
  have ea := disjointPrep_ok (τ := τ) hj hi h1
  by_cases hna : ra.1 = -TRUE_LIT
  · rw [if_pos hna] at hA
    obtain ⟨rfl, rfl⟩ := pureP_ok hA
    refine (pspec_true Base s).congr fun β _ => ?_
    rw [hna] at ea
    rcases ea with ⟨h, -⟩ | ⟨h, -⟩ | ⟨-, h⟩
    · cases h
    · cases h
    · simp only [true_iff]; intro _ h2; omega
  rw [if_neg hna] at hA
  obtain ⟨w, h2, hB⟩ := liftP_ok hA
  obtain ⟨rfl, -⟩ := machine_ok h2
  obtain ⟨rb, h3, hC⟩ := liftP_ok hB
  clear hA hB
  have eb := disjointPrep_ok (τ := τ) hi hj h3
  by_cases hnb : rb.1 = -TRUE_LIT
  · rw [if_pos hnb] at hC
    obtain ⟨rfl, rfl⟩ := pureP_ok hC
    refine (pspec_true Base s).congr fun β _ => ?_
    rw [hnb] at eb
    rcases eb with ⟨h, -⟩ | ⟨h, -⟩ | ⟨-, h⟩
    · cases h
    · cases h
    · simp only [true_iff]; intro _ h2; omega
  rw [if_neg hnb] at hC
  have ea' : (ra.1 = 0 ∧ (wsum τ ra.2.1 ≤ ra.2.2 ↔ τ j.2 - τ i.2 ≤ 0)) ∨ (ra.1 = TRUE_LIT ∧ τ j.2 - τ i.2 ≤ 0) := by
    rcases ea with h | h | ⟨h, -⟩
    exacts [Or.inl h, Or.inr h, absurd h hna]
  have eb' : (rb.1 = 0 ∧ (wsum τ rb.2.1 ≤ rb.2.2 ↔ τ i.2 - τ j.2 ≤ j.1 - 1)) ∨ (rb.1 = TRUE_LIT ∧ τ i.2 - τ j.2 ≤ j.1 - 1) := by
    rcases eb with h | h | ⟨h, -⟩
    exacts [Or.inl h, Or.inr h, absurd h hnb]
  refine pspec_disjointLit ho (local_imp hl) ea' hC ?_
  intro la s1 B1 m1 hb1 ha1 hl1 ho1 k1
  refine pspec_disjointLit ho1 (local_imp (by omega)) eb' k1 ?_
  intro lb s2 B2 m2 hb2 ha2 hl2 ho2 k2
  refine (pspec_post ho2 (local_clause ?_) k2).congr fun β hb => ?_
  · simp only [List.mem_cons, List.not_mem_nil, or_false, forall_eq_or_imp, forall_eq, abs_neg]; omega
  · have e2 := (hb2 β hb).2
    have e1 := (hb1 β (hb2 β hb).1).2
    simp only [pholds, List.mem_cons, List.not_mem_nil, or_false, exists_eq_or_imp, exists_eq_left, litTrue_neg β lit h0,
      litTrue_neg β la ha1, litTrue_neg β lb ha2, e1, e2]
    by_cases hh : litTrue β lit <;> simp [hh] <;> omega

theorem pspec_disjointPairs {lit : Int} (h0 : lit ≠ 0) {i : Int × Nat} (hi : i.2 < 4294967295) :
    ∀ (js : List (Int × Nat)) {Base : (Nat → Bool) → Prop} {s s' : PState} {b : Bool},
    (∀ j ∈ js, j.2 < 4294967295) → POracle env τ s.log s.nextLit Base → |lit| < s.nextLit → bDisjointPairs env lit i js s = .ok (b, s') →
    PSpec τ Base s b s' (fun β => litTrue β lit → ∀ j ∈ js, ¬ (τ j.2 ≤ τ i.2 ∧ τ i.2 < τ j.2 + j.1) ∧ ¬ (τ i.2 ≤ τ j.2 ∧ τ j.2 < τ i.2 + i.1))
  | [], Base, s, s', b, hy, ho, hl, h => by
    obtain ⟨rfl, rfl⟩ := pureP_ok h
    exact pspec_none lit (by simp)
  | j :: js, Base, s, s', b, hy, ho, hl, h => by
    unfold bDisjointPairs at h
    refine (pspec_and ho (local_imp hl) h (fun b1 s1 k1 => pspec_and ho (local_imp hl) k1
      (fun b2 s2 k2 => pspec_disjointPair ho h0 hl hi (hy j List.mem_cons_self) k2)
      (fun s2 B2 m2 _ ho2 k2 => pspec_disjointPair ho2 h0 (by omega) (hy j List.mem_cons_self) hi k2))
      (fun s2 B2 m2 _ ho2 k2 => pspec_disjointPairs h0 hi js (fun z hz => hy z (List.mem_cons_of_mem _ hz)) ho2 (by omega) k2)).congr fun β _ => ?_
    rw [List.forall_mem_cons]
    by_cases hh : litTrue β lit <;> simp only [hh, true_imp_iff, false_imp_iff, and_self]

theorem pspec_disjointAll {lit : Int} (h0 : lit ≠ 0) :
    ∀ (is : List (Int × Nat)) {Base : (Nat → Bool) → Prop} {s s' : PState} {b : Bool},
    (∀ j ∈ is, j.2 < 4294967295) → POracle env τ s.log s.nextLit Base → |lit| < s.nextLit → bDisjointAll env lit is s = .ok (b, s') →
    PSpec τ Base s b s' (fun β => litTrue β lit → is.Pairwise (fun i j => ¬ (τ j.2 ≤ τ i.2 ∧ τ i.2 < τ j.2 + j.1) ∧ ¬ (τ i.2 ≤ τ j.2 ∧ τ j.2 < τ i.2 + i.1)))
  | [], Base, s, s', b, hy, ho, hl, h => by
    obtain ⟨rfl, rfl⟩ := pureP_ok h
    exact pspec_none lit (by simp)
  | i :: is, Base, s, s', b, hy, ho, hl, h => by
    unfold bDisjointAll at h
    refine (pspec_and ho (local_imp hl) h (fun b1 s1 k1 => pspec_disjointPairs h0 (hy i List.mem_cons_self) is (fun z hz => hy z (List.mem_cons_of_mem _ hz)) ho hl k1)
      (fun s2 B2 m2 _ ho2 k2 => pspec_disjointAll h0 is (fun z hz => hy z (List.mem_cons_of_mem _ hz)) ho2 (by omega) k2)).congr fun β _ => ?_
    rw [List.pairwise_cons]
    by_cases hh : litTrue β lit <;> simp only [hh, true_imp_iff, false_imp_iff, and_self]

theorem pspec_addDisjoint {Base : (Nat → Bool) → Prop} {s s' : PState} {b : Bool} {lit : Int} {elems : List (Int × Nat)}
    (ho : POracle env τ s.log s.nextLit Base) (h0 : lit ≠ 0) (hl : |lit| < s.nextLit) (he : ∀ e ∈ elems, e.1 > 0 ∧ e.2 < 4294967295)
    (h : bAddDisjoint env lit elems s = .ok (b, s')) :
    PSpec τ Base s b s' (fun β => litTrue β lit → pairwiseDisjoint (elems.map (fun e => (τ e.2, e.1)))) := by
  unfold bAddDisjoint at h
  obtain ⟨t, s1, k1, h⟩ := bindP_ok h
  obtain ⟨rfl, rfl⟩ := pValue_ok k1
  by_cases hf : env.value s1.log lit = some false
  · rw [if_pos (by simp [hf])] at h
    obtain ⟨rfl, rfl⟩ := pureP_ok h
    refine (pspec_true Base s1).congr fun β hb => ?_
    have := ho.litval hf hb
    simp [this]
  · rw [if_neg (by simpa using hf)] at h
    by_cases hlen : elems.length > 2
    · rw [if_pos hlen] at h
      obtain ⟨u, s2, k2, h⟩ := bindP_ok h
      obtain ⟨rfl, rfl⟩ := pureP_ok h
      exact pspec_con (c := .disjoint lit elems) hl k2
    · rw [if_neg hlen] at h
      refine (pspec_disjointAll h0 elems (fun e hm => (he e hm).2) ho hl h).congr fun β _ => ?_
      refine imp_congr_right fun _ => ?_
      unfold pairwiseDisjoint
      rw [List.pairwise_map]
      refine List.Pairwise.iff_of_mem ?_
      intro x y hx hy
      have wx := (he x hx).1
      have wy := (he y hy).1
      constructor
      · rintro ⟨h1, h2⟩ ⟨z, ⟨h3, h4⟩, h5, h6⟩
        dsimp only at *
        by_cases hxy : τ x.2 ≤ τ y.2
        · exact h2 ⟨hxy, by omega⟩
        · exact h1 ⟨by omega, by omega⟩
      · intro h
        dsimp only at h
        exact ⟨fun h1 => h ⟨τ x.2, by omega⟩, fun h1 => h ⟨τ y.2, by omega⟩⟩

theorem pspec_event {Base : (Nat → Bool) → Prop} {s s' : PState} {b : Bool} {e : Event} (ho : POracle env τ s.log s.nextLit Base)
    (hw : Event.wf s.nextLit e) (hn : ∀ lit coab a b coc c rhs, e = .nonlinear lit coab a b coc c rhs true → coab = 0)
    (h : bEvent env e s = .ok (b, s')) : PSpec τ Base s b s' (fun β => holds β τ e) := by
  cases e with
  | clause c => exact pspec_post ho (local_clause hw) h
  | constraint lit elems rhs strict =>
    refine (pspec_addConstraint ho hw.1 hw.2.1 h).1.congr fun β _ => ?_
    show _ ↔ attached β lit strict (linVal τ elems ≤ rhs)
    rw [linVal_valid hw.2.2]
  | nonlinear lit coab a b coc c rhs strict =>
    exact pspec_addNonlinear ho hw.1 hw.2 (fun hs => hn lit coab a b coc c rhs (by rw [hs])) h
  | distinct lit elems =>
    refine (pspec_addDistinct ho hw.1 hw.2.1 hw.2.2 h).congr fun β _ => ?_
    show _ ↔ (litTrue β lit → pairwiseNe (elems.map (fun e => linVal τ e.1 + e.2)))
    have : elems.map (fun e => linVal τ e.1 + e.2) = elems.map (fun e => wsum τ e.1 + e.2) :=
      List.map_congr_left (fun e he => by rw [linVal_valid (hw.2.2 e he)])
    rw [this]
  | disjoint lit elems => exact pspec_addDisjoint ho hw.1 hw.2.1 hw.2.2 h
  | dom lit v elems => exact pspec_addDom ho hw.1 hw.2 h
  | minimize co v => obtain ⟨rfl, rfl⟩ := pureP_ok h; exact pspec_true Base s
  | «show» => obtain ⟨rfl, rfl⟩ := pureP_ok h; exact pspec_true Base s
  | showSignature n a => obtain ⟨rfl, rfl⟩ := pureP_ok h; exact pspec_true Base s
  | showVariable v => obtain ⟨rfl, rfl⟩ := pureP_ok h; exact pspec_true Base s

end
end Clingcon
