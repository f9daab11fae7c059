import Verif.Proof.Handed

/-! Helper lemmas about the form of the calls made by the constraint builder. -/
namespace Clingcon
open Spec
set_option linter.unusedSimpArgs false
set_option linter.unusedVariables false

theorem properCon_mono {n m : Int} {c : Constr} (h : properCon n c) (hm : n ≤ m) : properCon m c := by
  cases c <;> simp only [properCon] at h ⊢
  all_goals first | exact ⟨litOk_mono h.1 hm, h.2⟩ | exact h

theorem properP_mono {n m : Int} {e : PEv} (h : properP n e) (hm : n ≤ m) : properP m e := by
  cases e <;> simp only [properP] at h ⊢
  · exact fun l hl => litOk_mono (h l hl) hm
  · exact ⟨litOk_mono h.1 hm, h.2⟩
  · exact ⟨litOk_mono h.1 hm, h.2⟩
  · exact properCon_mono h hm

/-- Calls of the proper form are added. -/
def PNeatOut (s s' : PState) : Prop := s.nextLit ≤ s'.nextLit ∧ ∃ new, s'.log = s.log ++ new ∧ ∀ e ∈ new, properP s'.nextLit e

theorem PNeatOut.refl (s : PState) : PNeatOut s s := ⟨le_refl _, [], by simp, by simp⟩

theorem PNeatOut.trans {a b c : PState} (h : PNeatOut a b) (k : PNeatOut b c) : PNeatOut a c := by
  obtain ⟨g1, n1, e1, f1⟩ := h
  obtain ⟨g2, n2, e2, f2⟩ := k
  exact ⟨le_trans g1 g2, n1 ++ n2, by rw [e2, e1, List.append_assoc],
    fun e he => (List.mem_append.1 he).elim (fun h => properP_mono (f1 e h) g2) (f2 e)⟩

/-- The computation adds calls of the proper form if literals below `n` are known. -/
def PNeat {α : Type} (n : Int) (c : PM α) : Prop := ∀ s a s', n ≤ s.nextLit → c s = .ok (a, s') → PNeatOut s s'

theorem pneat_pure {α : Type} {n : Int} {a : α} : PNeat n (pure a : PM α) := by
  intro s b s' _ h
  obtain ⟨-, rfl⟩ := pureP_ok h
  exact PNeatOut.refl _

theorem pneat_throw {α : Type} {n : Int} {e : Err} : PNeat n (throw e : PM α) := by
  intro s b s' _ h
  cases h

theorem pneat_post {n : Int} {env : PEnv} {e : PEv} (h : properP n e) : PNeat n (pPost env e) := by
  intro s b s' hs h'
  simp only [pPost, Except.ok.injEq, Prod.mk.injEq] at h'
  obtain ⟨-, rfl⟩ := h'
  exact ⟨le_refl _, [e], rfl, by simpa using properP_mono h hs⟩

theorem pneat_con {n : Int} {c : Constr} (h : properCon n c) : PNeat n (pCon c) := by
  intro s b s' hs h'
  simp only [pCon, Except.ok.injEq, Prod.mk.injEq] at h'
  obtain ⟨-, rfl⟩ := h'
  exact ⟨le_refl _, [.con c], rfl, by simpa using properP_mono (e := .con c) h hs⟩

theorem pneat_bind {α γ : Type} {n : Int} {c : PM α} {f : α → PM γ} (h : PNeat n c) (k : ∀ a, PNeat n (f a)) : PNeat n (c >>= f) := by
  intro s b s' hs h'
  obtain ⟨a, s1, k1, h'⟩ := bindP_ok h'
  have g := h s a s1 hs k1
  exact g.trans (k a s1 b s' (le_trans hs g.1) h')

theorem pneat_lift {α γ : Type} {n : Int} {x : Res α} {f : α → PM γ} (k : ∀ a, x = .ok a → PNeat n (f a)) : PNeat n ((liftM x : PM α) >>= f) := by
  intro s b s' hs h'
  obtain ⟨a, k1, h'⟩ := liftP_ok h'
  exact k a k1 s b s' hs h'

theorem pneat_value {γ : Type} {n : Int} {env : PEnv} {l : Int} {f : Option Bool → PM γ} (k : ∀ a, PNeat n (f a)) : PNeat n (pValue env l >>= f) := by
  intro s b s' hs h'
  obtain ⟨a, s1, k1, h2⟩ := bindP_ok h'
  obtain ⟨-, rfl⟩ := pValue_ok k1
  exact k a _ b s' hs h2

theorem pneat_lit {γ : Type} {n : Int} {f : Int → PM γ} (hn : 1 < n) (k : ∀ a m, n ≤ m → litOk m a → PNeat m (f a)) : PNeat n (pLit >>= f) := by
  intro s b s' hs h'
  obtain ⟨a, s1, k1, h'⟩ := bindP_ok h'
  simp only [pLit, Except.ok.injEq, Prod.mk.injEq] at k1
  obtain ⟨rfl, rfl⟩ := k1
  obtain ⟨g, r⟩ := k s.nextLit (s.nextLit + 1) (by omega) ⟨by omega, by rw [abs_of_nonneg (by omega)]; omega⟩ _ b s' (le_refl _) h'
  exact ⟨by simp only at g; omega, r⟩

theorem pneat_and {n : Int} {c1 c2 : PM Bool} (h1 : PNeat n c1) (h2 : PNeat n c2) : PNeat n (pAnd c1 c2) := by
  refine pneat_bind h1 fun a => ?_
  cases a
  · exact pneat_pure
  · exact h2

section
variable {env : PEnv} (hsort : ∀ l, (env.sort l).Perm l)
include hsort

theorem coOk_sort {es : List (Int × Nat)} (h : coOk es) : coOk (env.sort es) :=
  ⟨fun e he => h.1 e ((hsort es).mem_iff.1 he), ((hsort es).map _).nodup_iff.2 h.2⟩

omit hsort in
theorem pInv_keep : ∀ (e e' : List (Int × Nat)), pInv e = .ok e' →
    e'.map Prod.snd = e.map Prod.snd ∧ ((∀ t ∈ e, t.1 ≠ 0) → ∀ t ∈ e', t.1 ≠ 0) := by
  intro e
  induction e with
  | nil =>
    intro e' h
    simp only [pInv, Except.ok.injEq] at h
    subst h; simp
  | cons t e ih =>
    intro e' h
    obtain ⟨c, k1, h⟩ := bind_ok h
    obtain ⟨ts, k2, h⟩ := bind_ok h
    have h := pure_ok h
    subst h
    obtain ⟨rfl, -⟩ := safeInv_ok k1
    obtain ⟨i1, i2⟩ := ih _ k2
    refine ⟨by simp [i1], fun hz u hu => ?_⟩
    rcases List.mem_cons.1 hu with rfl | hu
    · have := hz t List.mem_cons_self
      simpa using this
    · exact i2 (fun t ht => hz t (List.mem_cons_of_mem _ ht)) u hu

omit hsort in
theorem pVal_eq {x y : Int} (h : pVal x = .ok y) : y = x := by
  unfold pVal machine at h
  split at h
  · cases h; rfl
  · cases h

omit hsort in
theorem negVec_keep : ∀ (e e' : List (Int × Nat)), e.mapM (fun e => do let c ← pVal (-e.1); return (c, e.2)) = (.ok e' : Res _) →
    e'.map Prod.snd = e.map Prod.snd ∧ ((∀ t ∈ e, t.1 ≠ 0) → ∀ t ∈ e', t.1 ≠ 0) := by
  intro e
  induction e with
  | nil =>
    intro e' h
    rw [List.mapM_nil] at h
    have h := pure_ok h
    subst h; simp
  | cons t e ih =>
    intro e' h
    rw [List.mapM_cons] at h
    obtain ⟨u, k1, h⟩ := bind_ok h
    obtain ⟨ts, k2, h⟩ := bind_ok h
    have h := pure_ok h
    subst h
    obtain ⟨c, k3, k1⟩ := bind_ok k1
    have k1 := pure_ok k1
    subst k1
    have := pVal_eq k3
    subst this
    obtain ⟨i1, i2⟩ := ih _ k2
    refine ⟨by simp [i1], fun hz u hu => ?_⟩
    rcases List.mem_cons.1 hu with rfl | hu
    · have := hz t List.mem_cons_self
      simpa using this
    · exact i2 (fun t ht => hz t (List.mem_cons_of_mem _ ht)) u hu

omit hsort in
theorem coOk_of {e e' : List (Int × Nat)} (h : e'.map Prod.snd = e.map Prod.snd ∧ ((∀ t ∈ e, t.1 ≠ 0) → ∀ t ∈ e', t.1 ≠ 0)) (hc : coOk e) : coOk e' := by
  refine ⟨h.2 hc.1, ?_⟩
  have := hc.2
  rw [← h.1] at this; exact this

variable {n lit : Int}

theorem pneat_addConstraint {elems : List (Int × Nat)} {rhs : Int} {strict : Bool} (hl : litOk n lit) (hc : coOk elems) :
    PNeat n (bAddConstraint env lit elems rhs strict) := by
  unfold bAddConstraint
  refine pneat_value fun t => ?_
  split
  · exact pneat_pure
  · split
    · exact pneat_post ⟨hl, hc.1 _ List.mem_cons_self⟩
    · refine pneat_bind (pneat_con ⟨hl, coOk_sort hsort hc⟩) fun _ => ?_
      split
      · refine pneat_lift fun ie k => pneat_lift fun r1 _ => pneat_lift fun r2 _ => ?_
        exact pneat_bind (pneat_con ⟨litOk_neg hl, coOk_sort hsort (coOk_of (pInv_keep _ _ k) hc)⟩) fun _ => pneat_pure
      · exact pneat_pure

theorem pneat_addNonlinear {coab coc rhs : Int} {a b c : Nat} {strict : Bool} (hl : litOk n lit) :
    PNeat n (bAddNonlinear env lit coab a b coc c rhs strict) := by
  unfold bAddNonlinear
  split
  · refine pneat_addConstraint hsort hl ?_
    split
    · rename_i h
      exact ⟨by simpa using h, by simp⟩
    · exact ⟨by simp, by simp⟩
  · rename_i h
    refine pneat_bind (pneat_con ⟨hl, h⟩) fun _ => ?_
    split
    · refine pneat_lift fun iab k => pneat_lift fun _ _ => pneat_lift fun _ _ => pneat_lift fun _ _ => ?_
      obtain ⟨rfl, -⟩ := safeInv_ok k
      exact pneat_bind (pneat_con ⟨hl, by simpa using h⟩) fun _ => pneat_pure
    · exact pneat_pure

omit hsort in
theorem pneat_pairLits {truth : Option Bool} {k : Int → Int → PM Bool} (hn : 1 < n) (hl : litOk n lit)
    (hk : ∀ a b m, n ≤ m → litOk m a → litOk m b → PNeat m (k a b)) : PNeat n (bPairLits env lit truth k) := by
  unfold bPairLits
  refine pneat_lit hn fun a m h1 ha => ?_
  split
  · exact hk _ _ _ h1 ha (litOk_neg ha)
  · refine pneat_lit (lt_of_lt_of_le hn h1) fun b m' h2 hb => ?_
    have hl := litOk_mono hl (le_trans h1 h2)
    have ha := litOk_mono ha h2
    refine pneat_and (pneat_post ?_) (pneat_and (pneat_post ?_) (pneat_and (pneat_post ?_) (pneat_and (pneat_post ?_) (hk _ _ _ (le_trans h1 h2) ha hb))))
    all_goals
      simp only [properP, List.mem_cons, List.not_mem_nil, or_false, forall_eq_or_imp, forall_eq]
    · exact ⟨ha, hb, litOk_neg hl⟩
    · exact ⟨litOk_neg ha, litOk_neg hb⟩
    · exact ⟨hl, litOk_neg ha⟩
    · exact ⟨hl, litOk_neg hb⟩

theorem pneat_pairCons {es : List (Int × Nat)} {rhs a b : Int} (ha : litOk n a) (hb : litOk n b) (hc : coOk es) :
    PNeat n (bPairCons env es rhs a b) := by
  unfold bPairCons
  refine pneat_lift fun r1 _ => pneat_and (pneat_addConstraint hsort ha hc) ?_
  refine pneat_lift fun ne k => pneat_lift fun _ _ => pneat_lift fun _ _ => ?_
  exact pneat_addConstraint hsort hb (coOk_of (negVec_keep _ _ k) hc)

theorem pneat_pair {truth : Option Bool} {x y : List (Int × Nat) × Int} (hn : 1 < n) (hl : litOk n lit) : PNeat n (bPair env lit truth x y) := by
  unfold bPair
  refine pneat_lift fun r0 _ => pneat_lift fun ny _ => pneat_lift fun p k => pneat_lift fun r _ => ?_
  split
  · split
    · refine pneat_bind (pneat_post ?_) fun _ => pneat_pure
      simpa [properP] using litOk_neg hl
    · exact pneat_pure
  · refine pneat_bind (pneat_pairLits hn hl fun a b m _ ha hb => ?_) fun _ => pneat_pure
    exact pneat_pairCons hsort ha hb (linOk_simplify (out := p.1) (rhs := p.2) k).1

theorem pneat_pairs {truth : Option Bool} {x : List (Int × Nat) × Int} (hn : 1 < n) (hl : litOk n lit) :
    ∀ ys, PNeat n (bPairs env lit truth x ys) := by
  intro ys
  induction ys with
  | nil => exact pneat_pure
  | cons y ys ih =>
    unfold bPairs
    refine pneat_bind (pneat_pair hsort hn hl) fun r => ?_
    cases r with
    | none => exact ih
    | some b => exact pneat_pure

theorem pneat_allPairs {truth : Option Bool} (hn : 1 < n) (hl : litOk n lit) : ∀ xs, PNeat n (bAllPairs env lit truth xs) := by
  intro xs
  induction xs with
  | nil => exact pneat_pure
  | cons x xs ih =>
    unfold bAllPairs
    refine pneat_bind (pneat_pairs hsort hn hl xs) fun r => ?_
    cases r with
    | none => exact ih
    | some b => exact pneat_pure

theorem pneat_addDistinct {es : List (List (Int × Nat) × Int)} (hn : 1 < n) (hl : litOk n lit) (hc : ∀ e ∈ es, coOk e.1) :
    PNeat n (bAddDistinct env lit es) := by
  unfold bAddDistinct
  refine pneat_value fun t => ?_
  split
  · exact pneat_pure
  · split
    · refine pneat_bind (pneat_con ⟨hl, fun e he => ?_⟩) fun _ => pneat_pure
      obtain ⟨u, hu, rfl⟩ := List.mem_map.1 he
      exact coOk_sort hsort (hc u hu)
    · exact pneat_allPairs hsort hn hl es

omit hsort in
theorem disjointPrep_keep {i j : Nat} {rhs : Int} {r : Int × List (Int × Nat) × Int} (h : bDisjointPrep i j rhs = .ok r) :
    (r.1 = 0 ∨ r.1 = TRUE_LIT ∨ r.1 = -TRUE_LIT) ∧ coOk r.2.1 := by
  unfold bDisjointPrep at h
  obtain ⟨p, k1, h⟩ := bind_ok h
  obtain ⟨q, k2, h⟩ := bind_ok h
  have h := pure_ok h
  subst h
  refine ⟨?_, (linOk_simplify (out := p.1) (rhs := p.2) k1).1⟩
  simp only
  split_ifs <;> simp

theorem pneat_disjointLit {l : Int} {es : List (Int × Nat)} {rhs : Int} {k : Int → PM Bool} (hn : 1 < n)
    (hl : l = 0 ∨ l = TRUE_LIT ∨ l = -TRUE_LIT) (hc : coOk es) (hk : ∀ a m, n ≤ m → litOk m a → PNeat m (k a)) :
    PNeat n (bDisjointLit env l es rhs k) := by
  unfold bDisjointLit
  split
  · refine pneat_lit hn fun a m h1 ha => ?_
    exact pneat_and (pneat_addConstraint hsort ha hc) (hk a m h1 ha)
  · rename_i h
    refine hk _ _ (le_refl _) ?_
    rcases hl with rfl | rfl | rfl
    · exact absurd rfl h
    · exact litOk_true hn
    · exact litOk_neg (litOk_true hn)

theorem pneat_disjointPair {i j : Int × Nat} (hn : 1 < n) (hl : litOk n lit) : PNeat n (bDisjointPair env lit i j) := by
  unfold bDisjointPair
  split
  · exact pneat_throw
  · refine pneat_lift fun a k1 => ?_
    split
    · exact pneat_pure
    · refine pneat_lift fun r _ => pneat_lift fun b k2 => ?_
      split
      · exact pneat_pure
      · obtain ⟨a1, a2⟩ := disjointPrep_keep k1
        obtain ⟨b1, b2⟩ := disjointPrep_keep k2
        refine pneat_disjointLit hsort hn a1 a2 fun la m h1 hla => pneat_disjointLit hsort (lt_of_lt_of_le hn h1) b1 b2 fun lb m' h2 hlb => pneat_post ?_
        simp only [properP, List.mem_cons, List.not_mem_nil, or_false, forall_eq_or_imp, forall_eq]
        exact ⟨litOk_neg (litOk_mono hl (le_trans h1 h2)), litOk_neg (litOk_mono hla h2), litOk_neg hlb⟩

theorem pneat_disjointPairs {i : Int × Nat} (hn : 1 < n) (hl : litOk n lit) : ∀ js, PNeat n (bDisjointPairs env lit i js) := by
  intro js
  induction js with
  | nil => exact pneat_pure
  | cons j js ih => exact pneat_and (pneat_and (pneat_disjointPair hsort hn hl) (pneat_disjointPair hsort hn hl)) ih

theorem pneat_disjointAll (hn : 1 < n) (hl : litOk n lit) : ∀ is, PNeat n (bDisjointAll env lit is) := by
  intro is
  induction is with
  | nil => exact pneat_pure
  | cons i is ih => exact pneat_and (pneat_disjointPairs hsort hn hl is) ih

theorem pneat_event {e : Event} (hn : 1 < n) (h : properEv n e) : PNeat n (bEvent env e) := by
  cases e with
  | clause c => exact pneat_post h
  | constraint l es r s => exact pneat_addConstraint hsort h.1 h.2.1
  | nonlinear l ca a b cc c r s => exact pneat_addNonlinear hsort h
  | distinct l es => exact pneat_addDistinct hsort hn h.1 fun e he => (h.2 e he).1
  | disjoint l es =>
    show PNeat n (bAddDisjoint env l es)
    unfold bAddDisjoint
    refine pneat_value fun t => ?_
    split
    · exact pneat_pure
    · split
      · exact pneat_bind (pneat_con ⟨h.1, fun e he => (h.2 e he).1⟩) fun _ => pneat_pure
      · exact pneat_disjointAll hsort hn h.1 es
  | dom l v d =>
    show PNeat n (bAddDom env l v d)
    unfold bAddDom
    refine pneat_value fun t => ?_
    split
    · exact pneat_pure
    · exact pneat_post h
  | _ => exact pneat_pure

end
end Clingcon
