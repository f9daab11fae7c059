import Verif.Spec.Handed
import Verif.Proof.Objective
import Verif.Proof.ConBuilder

/-! Helper lemmas about the form of the calls made while a program is parsed. -/
namespace Clingcon
open Spec
set_option linter.unusedSimpArgs false
set_option linter.unusedVariables false

theorem litOk_mono {n m l : Int} (h : litOk n l) (hm : n ≤ m) : litOk m l := ⟨h.1, lt_of_lt_of_le h.2 hm⟩
theorem litOk_neg {n l : Int} (h : litOk n l) : litOk n (-l) := ⟨by have := h.1; omega, by rw [abs_neg]; exact h.2⟩
theorem litOk_true {n : Int} (h : 1 < n) : litOk n TRUE_LIT := ⟨by decide, by simpa [TRUE_LIT] using h⟩
theorem litOk_neg' {n l : Int} (h : litOk n (-l)) : litOk n l := by simpa using litOk_neg h

theorem properEv_mono {n m : Int} {e : Event} (h : properEv n e) (hm : n ≤ m) : properEv m e := by
  cases e <;> simp only [properEv] at h ⊢
  · exact fun l hl => litOk_mono (h l hl) hm
  · exact ⟨litOk_mono h.1 hm, h.2⟩
  · exact litOk_mono h hm
  all_goals exact ⟨litOk_mono h.1 hm, h.2⟩

theorem properEv_wf {n : Int} {e : Event} (h : properEv n e) : Event.wf n e := by
  cases e <;> simp only [properEv, Event.wf] at h ⊢
  · exact fun l hl => (h l hl).2
  · exact ⟨h.1.1, h.1.2, h.2.2⟩
  · exact h
  · exact ⟨h.1.1, h.1.2, fun e he => (h.2 e he).2⟩
  · exact ⟨h.1.1, h.1.2, h.2⟩
  · exact h.1

/-- Calls of the proper form are added. -/
def NeatOut (s s' : BState) : Prop := Keeps s s' ∧ ∃ new, s'.log = s.log ++ new ∧ ∀ e ∈ new, properEv s'.nextLit e

theorem NeatOut.trans {a b c : BState} (h : NeatOut a b) (k : NeatOut b c) : NeatOut a c := by
  obtain ⟨g1, n1, e1, f1⟩ := h
  obtain ⟨g2, n2, e2, f2⟩ := k
  exact ⟨g1.trans g2, n1 ++ n2, by rw [e2, e1, List.append_assoc],
    fun e he => (List.mem_append.1 he).elim (fun h => properEv_mono (f1 e h) g2.next) (f2 e)⟩

theorem NeatOut.refl (s : BState) : NeatOut s s := ⟨Keeps.refl _, [], by simp, by simp⟩

/-- The computation adds calls of the proper form if literals below `n` are known. -/
def Neat (n : Int) (c : BM Bool) : Prop := ∀ s b s', n ≤ s.nextLit → c s = .ok (b, s') → NeatOut s s'

theorem Neat.mono {n m : Int} {c : BM Bool} (h : Neat n c) (hm : n ≤ m) : Neat m c := fun s b s' hs => h s b s' (le_trans hm hs)

theorem neat_pure {n : Int} {b : Bool} : Neat n (pure b) := by
  intro s b s' _ h
  have h := pureS_ok h
  simp only [Prod.mk.injEq] at h
  obtain ⟨-, rfl⟩ := h
  exact NeatOut.refl _

theorem neat_post {n : Int} {env : BEnv} {e : Event} (h : properEv n e) : Neat n (post env e) := by
  intro s b s' hs h'
  simp only [post, Except.ok.injEq, Prod.mk.injEq] at h'
  obtain ⟨-, rfl⟩ := h'
  exact ⟨⟨rfl, rfl, le_refl _⟩, [e], rfl, by simpa using properEv_mono h hs⟩

theorem neat_andThen {n : Int} {c1 c2 : BM Bool} (h1 : Neat n c1) (h2 : Neat n c2) : Neat n (andThen c1 c2) := by
  intro s b s' hs h
  unfold andThen at h
  obtain ⟨a, s1, k, h⟩ := bindS_ok h
  have g1 := h1 s a s1 hs k
  cases a with
  | false => exact g1.trans (neat_pure (n := n) _ _ _ (le_trans hs g1.1.next) h)
  | true => exact g1.trans (h2 _ _ _ (le_trans hs g1.1.next) h)

theorem neat_lift {α : Type} {n : Int} {x : Res α} {c : α → BM Bool} (h : ∀ a, x = .ok a → Neat n (c a)) :
    Neat n ((liftM x : BM α) >>= c) := by
  intro s b s' hs k
  obtain ⟨a, k1, k⟩ := liftBind_ok k
  exact h a k1 s b s' hs k

theorem neat_isTrue {n : Int} {env : BEnv} {l : Int} {c : Bool → BM Bool} (h : ∀ a, Neat n (c a)) : Neat n (isTrue env l >>= c) := by
  intro s b s' hs k
  obtain ⟨a, s1, k1, k⟩ := bindS_ok k
  simp only [isTrue, Except.ok.injEq, Prod.mk.injEq] at k1
  obtain ⟨-, rfl⟩ := k1
  exact h a s b s' hs k

theorem neat_addLiteral {n : Int} {c : Int → BM Bool} (hn : 1 < n) (h : ∀ a m, n ≤ m → litOk m a → Neat m (c a)) : Neat n (addLiteral >>= c) := by
  intro s b s' hs k
  obtain ⟨a, s1, k1, k⟩ := bindS_ok k
  simp only [addLiteral, Except.ok.injEq, Prod.mk.injEq] at k1
  obtain ⟨rfl, rfl⟩ := k1
  obtain ⟨g, r⟩ := h s.nextLit (s.nextLit + 1) (by omega) ⟨by omega, by rw [abs_of_nonneg (by omega)]; omega⟩ _ b s' (le_refl _) k
  exact ⟨⟨g.sym, g.num, by have := g.next; simp only at this; omega⟩, r⟩

section
variable {V : Type} {env : BEnv} {add : AddConstraint V} {P : List (Int × V) → Prop}
  (hadd : ∀ n l e r s, litOk n l → P e → Neat n (add l e r s)) (hinv : ∀ e e', invAll e = .ok e' → P e → P e')

include hinv in
theorem rewriteRel_keep {elems : List (Int × V)} {op : Rel} {rhs : Int} {r : List (Int × V) × Rel × Int} (h : rewriteRel elems op rhs = .ok r)
    (hp : P elems) : P r.1 := by
  unfold rewriteRel at h
  cases op with
  | gt =>
    obtain ⟨r1, k1, h⟩ := bind_ok h
    obtain ⟨r2, k2, h⟩ := bind_ok h
    obtain ⟨el, k3, h⟩ := bind_ok h
    have h := pure_ok h
    subst h
    exact hinv _ _ k3 hp
  | ge =>
    obtain ⟨r2, k2, h⟩ := bind_ok h
    obtain ⟨el, k3, h⟩ := bind_ok h
    have h := pure_ok h
    subst h
    exact hinv _ _ k3 hp
  | lt =>
    obtain ⟨r2, k2, h⟩ := bind_ok h
    have h := pure_ok h
    subst h
    exact hp
  | _ =>
    have h := pure_ok h
    subst h
    exact hp

include hadd
variable {n lit a b : Int} {elems : List (Int × V)} {rhs : Int} {strict : Bool}

theorem neat_le1 (hl : litOk n lit) (hp : P elems) : Neat n (normalizeLe1 env add lit elems rhs) := by
  refine neat_isTrue fun a => ?_
  cases a
  · exact hadd _ _ _ _ _ hl hp
  · exact neat_pure

include hinv

theorem neat_le (hl : litOk n lit) (hp : P elems) : Neat n (normalizeLe env add lit elems rhs strict) := by
  unfold normalizeLe
  split
  · split
    · exact hadd _ _ _ _ _ hl hp
    · exact neat_andThen (neat_le1 hadd hl hp) (neat_lift fun r k => neat_le1 hadd (litOk_neg hl) (rewriteRel_keep hinv k hp))
  · exact neat_le1 hadd hl hp

theorem neat_both (ha : litOk n a) (hb : litOk n b) (hp : P elems) : Neat n (normalizeBoth env add a b elems rhs strict) :=
  neat_andThen (neat_le hadd hinv ha hp) (neat_lift fun r k => neat_le hadd hinv hb (rewriteRel_keep hinv k hp))

theorem neat_eqLits (hl : litOk n lit) (ha : litOk n a) (hb : litOk n b) (hp : P elems) : Neat n (normalizeEqLits env add lit a b elems rhs) := by
  refine neat_andThen (neat_post ?_) (neat_andThen (neat_post ?_) (neat_andThen (neat_post ?_) (neat_both hadd hinv ha hb hp)))
  all_goals
    simp only [properEv, List.mem_cons, List.not_mem_nil, or_false, forall_eq_or_imp, forall_eq]
  · exact ⟨litOk_neg hl, ha⟩
  · exact ⟨litOk_neg hl, hb⟩
  · exact ⟨litOk_neg ha, litOk_neg hb, hl⟩

theorem neat_eq (hn : 1 < n) (hl : litOk n lit) (hp : P elems) : Neat n (normalizeEq env add lit elems rhs strict) := by
  unfold normalizeEq
  split
  · refine neat_isTrue fun t => ?_
    split
    · exact neat_eqLits hadd hinv hl (litOk_true hn) (litOk_true hn) hp
    · refine neat_addLiteral hn fun a m h1 ha => neat_addLiteral (lt_of_lt_of_le hn h1) fun b m' h2 hb => ?_
      exact neat_eqLits hadd hinv (litOk_mono hl (le_trans h1 h2)) (litOk_mono ha h2) hb hp
  · exact neat_both hadd hinv hl hl hp

theorem neat_ne (hn : 1 < n) (hl : litOk n lit) (hp : P elems) : Neat n (normalizeNe env add lit elems rhs strict) := by
  unfold normalizeNe
  split
  · exact neat_eq hadd hinv hn (litOk_neg hl) hp
  · refine neat_addLiteral hn fun a m h1 ha => neat_addLiteral (lt_of_lt_of_le hn h1) fun b m' h2 hb => ?_
    have hl := litOk_mono hl (le_trans h1 h2)
    have ha := litOk_mono ha h2
    refine neat_andThen (neat_post ?_) (neat_andThen (neat_post ?_) (neat_andThen (neat_post ?_) (neat_andThen (neat_post ?_)
      (neat_andThen (neat_lift fun r k => neat_le hadd hinv ha (rewriteRel_keep hinv k hp))
        (neat_lift fun r k => neat_le hadd hinv hb (rewriteRel_keep hinv k hp))))))
    all_goals
      simp only [properEv, List.mem_cons, List.not_mem_nil, or_false, forall_eq_or_imp, forall_eq]
    · exact ⟨ha, hb, litOk_neg hl⟩
    · exact ⟨litOk_neg ha, litOk_neg hb⟩
    · exact ⟨hl, litOk_neg ha⟩
    · exact ⟨hl, litOk_neg hb⟩

theorem neat_normalize {op : Rel} (hn : 1 < n) (hl : litOk n lit) (hp : P elems) : Neat n (normalize env add lit elems op rhs strict) := by
  unfold normalize
  refine neat_lift fun r k => ?_
  have hp := rewriteRel_keep hinv k hp
  split
  · exact neat_eq hadd hinv hn hl hp
  · exact neat_ne hadd hinv hn hl hp
  · exact neat_le hadd hinv hl hp

end

theorem invAll_keep {V : Type} : ∀ (e e' : List (Int × V)), invAll e = .ok e' →
    e'.map Prod.snd = e.map Prod.snd ∧ ((∀ t ∈ e, t.1 ≠ 0) → ∀ t ∈ e', t.1 ≠ 0) := by
  intro e
  induction e with
  | nil =>
    intro e' h
    simp only [invAll, Except.ok.injEq] at h
    subst h; simp
  | cons t e ih =>
    intro e' h
    obtain ⟨c, k1, h⟩ := bind_ok h
    obtain ⟨ts, k2, h⟩ := bind_ok h
    have h := pure_ok h
    subst h
    obtain ⟨rfl, -⟩ := safeInv_ok k1
    obtain ⟨i1, i2⟩ := ih _ k2
    refine ⟨by simp [i1], fun hz u hu => ?_⟩
    rcases List.mem_cons.1 hu with rfl | hu
    · have := hz t List.mem_cons_self
      simpa using this
    · exact i2 (fun t ht => hz t (List.mem_cons_of_mem _ ht)) u hu

/-- Sums over valid variables. -/
def linOk (es : List (Int × Nat)) : Prop := coOk es ∧ ∀ e ∈ es, e.2 < 4294967295

theorem linOk_invAll (e e' : List (Int × Nat)) (h : invAll e = .ok e') (hp : linOk e) : linOk e' := by
  obtain ⟨h1, h2⟩ := invAll_keep e e' h
  refine ⟨⟨h2 hp.1.1, ?_⟩, fun t ht => ?_⟩
  · have := hp.1.2
    rw [← h1] at this; exact this
  · have : t.2 ∈ e'.map Prod.snd := List.mem_map_of_mem ht
    rw [h1] at this
    obtain ⟨u, hu, he⟩ := List.mem_map.1 this
    rw [← he]; exact hp.2 u hu

theorem linOk_divGcd {es : List (Int × Nat)} {rhs : Int} (hp : linOk es) : linOk (divGcd es rhs).1 := by
  have hs := (divGcd_spec es rhs).1
  refine ⟨⟨?_, ?_⟩, fun t ht => ?_⟩
  · unfold divGcd
    simp only
    obtain ⟨h1, h2⟩ := gcdAll_dvd es rhs
    generalize gcdAll es rhs = d at *
    by_cases hd : d > 1
    · rw [if_pos hd]
      intro t ht
      obtain ⟨u, hu, rfl⟩ := List.mem_map.1 ht
      intro h
      simp only at h
      have := tdiv_mul_of_dvd (h2 u hu)
      rw [h, zero_mul] at this
      exact hp.1.1 u hu this.symm
    · rw [if_neg hd]; exact hp.1.1
  · have := hp.1.2
    rw [← hs] at this; exact this
  · have : t.2 ∈ (divGcd es rhs).1.map Prod.snd := List.mem_map_of_mem ht
    rw [hs] at this
    obtain ⟨u, hu, he⟩ := List.mem_map.1 this
    rw [← he]; exact hp.2 u hu

theorem linOk_simplify {vec out : List (Int × Nat)} {rhs : Int} (h : simplify vec true = .ok (out, rhs)) : linOk out := by
  obtain ⟨-, h1, h2, h3, -⟩ := Props.C06_shape vec true out rhs h
  exact ⟨⟨h3 rfl, h1⟩, fun t ht => (h2 t ht).1⟩

theorem neat_addLinear {env : BEnv} (n l : Int) (e : List (Int × Nat)) (r : Int) (s : Bool) (hl : litOk n l) (hp : linOk e) :
    Neat n (addLinear env l e r s) := neat_post ⟨hl, hp.1, hp.2⟩

theorem neat_addNonlin {env : BEnv} (n l : Int) (e : List (Int × List Nat)) (r : Int) (s : Bool) (hl : litOk n l) (_ : True) :
    Neat n (addNonlin env l e r s) := neat_lift fun _ _ => neat_post hl

/-- Outcome of an atom: calls of the proper form are added. -/
def AtomNeat (s s' : BState) : Prop :=
  Grows s s' ∧ (s'.numVars ≤ 4294967295 → ∃ new, s'.log = s.log ++ new ∧ ∀ e ∈ new, properEv s'.nextLit e)

theorem atomNeat {s s1 s' : BState} (hw : s1.WF) (he : Ext s s1) (h : s1.numVars ≤ 4294967295 → NeatOut s1 s') (hk : Keeps s1 s') : AtomNeat s s' := by
  refine ⟨⟨⟨by rw [hk.sym]; exact hw.keys, by rw [hk.sym]; exact hw.vals, by rw [hk.sym, hk.num]; exact hw.bound⟩, ?_, ?_, ?_⟩, fun hn => ?_⟩
  · rw [hk.sym]; exact he.sym
  · rw [hk.num]; exact he.num
  · rw [← he.next]; exact hk.next
  · rw [hk.num] at hn
    obtain ⟨-, new, e1, e2⟩ := h hn
    exact ⟨new, by rw [e1, he.log], e2⟩

theorem atomNeat' {s s1 s' : BState} (hw : s1.WF) (he : Ext s s1) (h : NeatOut s1 s') : AtomNeat s s' := atomNeat hw he (fun _ => h) h.1

theorem distinctElems_neat {pow : Int → Int → Res Int} : ∀ (ts : List Term) (s s' : BState) (es : List (List (Int × Nat) × Int)),
    parseDistinctElems pow ts s = .ok (es, s') → ∀ e ∈ es, coOk e.1 ∧ ∀ t ∈ e.1, t.2 < 4294967295 := by
  intro ts
  induction ts with
  | nil =>
    intro s s' es h
    have h := pureS_ok h
    simp only [Prod.mk.injEq] at h
    obtain ⟨rfl, -⟩ := h
    simp
  | cons t ts ih =>
    intro s s' es h
    rw [parseDistinctElems] at h
    obtain ⟨vec, s1, k1, h⟩ := bindS_ok h
    obtain ⟨⟨out, rhs⟩, k2, h⟩ := liftBind_ok h
    obtain ⟨c, k3, h⟩ := liftBind_ok h
    obtain ⟨es', s2, k4, h⟩ := bindS_ok h
    have h := pureS_ok h
    simp only [Prod.mk.injEq] at h
    obtain ⟨rfl, -⟩ := h
    intro e he
    rcases List.mem_cons.1 he with rfl | he
    · exact linOk_simplify k2
    · exact ih _ _ _ k4 e he

theorem disjointElems_neat {pow : Int → Int → Res Int} : ∀ (ts : List Term) (s s' : BState) (es : List (Int × Nat)), s.WF →
    parseDisjointElems pow ts s = .ok (es, s') → ∀ e ∈ es, e.1 > 0 ∧ e.2 < s'.numVars := by
  intro ts
  induction ts with
  | nil =>
    intro s s' es _ h
    have h := pureS_ok h
    simp only [Prod.mk.injEq] at h
    obtain ⟨rfl, -⟩ := h
    simp
  | cons t ts ih =>
    intro s s' es hw h
    by_cases ht : ∃ a b, t = .fn "@" [a, b]
    · obtain ⟨a, b, rfl⟩ := ht
      rw [parseDisjointElems] at h
      obtain ⟨x, k1, h⟩ := liftBind_ok h
      obtain ⟨y, k2, h⟩ := liftBind_ok h
      split at h
      · cases h
      · obtain ⟨n, k3, h⟩ := liftBind_ok h
        by_cases hn : n > 0
        · rw [if_pos hn] at h
          obtain ⟨n', k4, h⟩ := liftBind_ok h
          have hn' : n' = n := (checkValidValue_ok k4).1
          rw [hn'] at h
          obtain ⟨v, s1, k5, h⟩ := bindS_ok h
          obtain ⟨es', s2, k6, h⟩ := bindS_ok h
          have h := pureS_ok h
          simp only [Prod.mk.injEq] at h
          obtain ⟨rfl, rfl⟩ := h
          obtain ⟨w1, w2, w3⟩ := addVariable_spec hw k5
          obtain ⟨-, u2, -⟩ := parseDisjointElems_spec ts s1 _ es' w1 k6
          intro e he
          rcases List.mem_cons.1 he with rfl | he
          · exact ⟨hn, lt_of_lt_of_le (w1.bound _ w3) u2.num⟩
          · exact ih _ _ _ w1 k6 e he
        · rw [if_neg hn] at h
          exact ih _ _ _ hw h
    · rw [parseDisjointElems] at h
      · cases h
      · intro hh; cases hh
      · intro a b ts' hh
        simp only [List.cons.injEq] at hh
        exact ht ⟨a, b, hh.1⟩

section
variable {pow : Int → Int → Res Int} (hpow : ∀ x y z, pow x y = .ok z → -2 ^ 31 ≤ z ∧ z ≤ 2 ^ 31 - 1)
variable {env : BEnv} {s s' : BState} {b : Bool}
include hpow

theorem sum_neat {lit : Int} {ts : List Term} {guard : Option (Rel × Term)} {strict : Bool} (hw : s.WF) (hn : 1 < s.nextLit)
    (hl : litOk s.nextLit (env.solverLit lit))
    (h : parseSumAtom pow env { lit := lit, elems := ts, guard := guard } strict s = .ok (b, s')) : AtomNeat s s' := by
  cases guard with
  | none => cases h
  | some g =>
    unfold parseSumAtom at h
    simp only at h
    obtain ⟨el, s1, k1, h⟩ := bindS_ok h
    obtain ⟨⟨out, rhs⟩, k2, h⟩ := liftBind_ok h
    obtain ⟨w1, w2, -⟩ := parseSum_spec names_spec powers_spec
      (fun x y z h => by rw [val_fits]; have := hpow x y z h; omega) hw k1
    exact atomNeat' w1 w2 (neat_normalize neat_addLinear linOk_invAll hn hl (linOk_divGcd (linOk_simplify k2)) _ _ _ (by rw [w2.next]) h)

theorem diff_neat {lit : Int} {ts : List Term} {guard : Option (Rel × Term)} {strict : Bool} (hw : s.WF) (hn : 1 < s.nextLit)
    (hl : litOk s.nextLit (env.solverLit lit))
    (h : parseDiffAtom pow env { lit := lit, elems := ts, guard := guard } strict s = .ok (b, s')) : AtomNeat s s' := by
  cases guard with
  | none => cases h
  | some g =>
    unfold parseDiffAtom at h
    simp only at h
    obtain ⟨el, s1, k1, h⟩ := bindS_ok h
    obtain ⟨⟨out, rhs⟩, k2, h⟩ := liftBind_ok h
    obtain ⟨w1, w2, -⟩ := parseDiff_spec names_spec powers_spec
      (fun x y z h => by rw [val_fits]; have := hpow x y z h; omega) hw k1
    exact atomNeat' w1 w2 (neat_normalize neat_addLinear linOk_invAll hn hl (linOk_divGcd (linOk_simplify k2)) _ _ _ (by rw [w2.next]) h)

theorem nsum_neat {lit : Int} {ts : List Term} {guard : Option (Rel × Term)} {strict : Bool} (hw : s.WF) (hn : 1 < s.nextLit)
    (hl : litOk s.nextLit (env.solverLit lit))
    (h : parseNsumAtom pow env { lit := lit, elems := ts, guard := guard } strict s = .ok (b, s')) : AtomNeat s s' := by
  cases guard with
  | none => cases h
  | some g =>
    unfold parseNsumAtom at h
    simp only at h
    obtain ⟨el, s1, k1, h⟩ := bindS_ok h
    obtain ⟨⟨out, rhs⟩, k2, h⟩ := liftBind_ok h
    obtain ⟨w1, w2, -⟩ := parseSum_spec names_spec powers_spec
      (fun x y z h => by rw [val_fits]; have := hpow x y z h; omega) hw k1
    exact atomNeat' w1 w2 (neat_normalize (P := fun _ => True) neat_addNonlin (fun _ _ _ _ => trivial) hn hl trivial _ _ _ (by rw [w2.next]) h)

theorem parseAtom_neat {a : TheoryAtom} (hw : s.WF) (hn : 1 < s.nextLit) (hl : litOk s.nextLit (env.solverLit a.lit))
    (h : parseAtom pow env a s = .ok (b, s')) : AtomNeat s s' := by
  have hh := h
  obtain ⟨term, lit, elems, guard⟩ := a
  unfold parseAtom at h
  simp only [Bool.or_eq_true, matchTerm_zero] at h hl
  by_cases c1 : theoryName term = some "__sum_b" ∨ theoryName term = some "__sum_h"
  · rw [if_pos c1] at h
    obtain ⟨ts, k1, h⟩ := liftBind_ok h
    exact sum_neat hpow hw hn hl h
  rw [if_neg c1] at h
  by_cases c2 : theoryName term = some "__diff_b" ∨ theoryName term = some "__diff_h"
  · rw [if_pos c2] at h
    obtain ⟨ts, k1, h⟩ := liftBind_ok h
    exact diff_neat hpow hw hn hl h
  rw [if_neg c2] at h
  by_cases c3 : theoryName term = some "__nsum_b" ∨ theoryName term = some "__nsum_h"
  · rw [if_pos c3] at h
    obtain ⟨ts, k1, h⟩ := liftBind_ok h
    exact nsum_neat hpow hw hn hl h
  rw [if_neg c3] at h
  by_cases c4 : theoryName term = some "distinct"
  · rw [if_pos c4] at h
    obtain ⟨ts, k1, h⟩ := liftBind_ok h
    unfold parseDistinct at h
    obtain ⟨es, s1, k1, h⟩ := bindS_ok h
    obtain ⟨w1, w2, -⟩ := parseDistinctElems_spec hpow ts s s1 es hw k1
    exact atomNeat' w1 w2 (neat_post (n := s.nextLit) (e := .distinct (env.solverLit lit) es) ⟨hl, distinctElems_neat ts s s1 es k1⟩ _ _ _ (by rw [w2.next]) h)
  rw [if_neg c4] at h
  by_cases c5 : theoryName term = some "disjoint"
  · rw [if_pos c5] at h
    obtain ⟨ts, k1, h⟩ := liftBind_ok h
    unfold parseDisjoint at h
    obtain ⟨es, s1, k1, h⟩ := bindS_ok h
    obtain ⟨w1, w2, -⟩ := parseDisjointElems_spec ts s s1 es hw k1
    refine atomNeat w1 w2 (fun hv => neat_post (n := s.nextLit) (e := .disjoint (env.solverLit lit) es) ⟨hl, fun e he => ?_⟩ _ _ _ (by rw [w2.next]) h) (quiet_post rfl _ _ _ h).1
    have := disjointElems_neat ts s s1 es hw k1 e he
    exact ⟨this.1, by omega⟩
  rw [if_neg c5] at h
  by_cases c7 : theoryName term = some "dom"
  · rw [if_neg (by simp [c7]), if_pos c7] at h
    obtain ⟨ts, k1, h⟩ := liftBind_ok h
    unfold parseDom at h
    obtain ⟨d, k0, h⟩ := liftBind_ok h
    cases guard with
    | none => cases h
    | some g =>
      simp only at h
      obtain ⟨x, k2, h⟩ := liftBind_ok h
      obtain ⟨v, s1, k3, h⟩ := bindS_ok h
      obtain ⟨w1, w2, w3⟩ := addVariable_spec hw k3
      have hc := (parseDomElems_spec _ _ _ IntervalSet.canonical_nil k0).1
      exact atomNeat' w1 w2 (neat_post (n := s.nextLit) (e := .dom (env.solverLit lit) v d) ⟨hl, hc⟩ _ _ _ (by rw [w2.next]) h)
  rcases parseAtom_cases hpow hw hh with ⟨d1, d2, d3, -⟩ | ⟨c, -, k⟩ | ⟨c, -, k⟩ | ⟨c, -, k⟩
  · by_cases c6 : theoryName term = some "show"
    · exact absurd c6 d3
    by_cases c8 : theoryName term = some "minimize"
    · exact absurd c8 d1
    by_cases c9 : theoryName term = some "maximize"
    · exact absurd c9 d2
    rw [if_neg c6, if_neg c7, if_neg c8, if_neg c9] at h
    exact atomNeat' hw (Ext.refl _) (neat_pure (n := s.nextLit) _ _ _ (le_refl _) h)
  · obtain ⟨g1, -, es, l1, p1⟩ := parseShow_spec hw k
    refine ⟨g1, fun _ => ⟨_, l1, fun e he => ?_⟩⟩
    rcases List.mem_cons.1 he with rfl | he
    · trivial
    · have := (showElems_isShow p1).1
      have := List.filter_eq_self.1 this e he
      cases e <;> simp_all [isShow, properEv]
  · obtain ⟨g1, ms, l1, -, q1⟩ := parseObjective_spec hpow hw k
    refine ⟨g1, fun _ => ⟨_, l1, fun e he => ?_⟩⟩
    obtain ⟨m, -, rfl⟩ := List.mem_map.1 he
    trivial
  · obtain ⟨g1, ms, l1, -, q1⟩ := parseObjective_spec hpow hw k
    refine ⟨g1, fun _ => ⟨_, l1, fun e he => ?_⟩⟩
    obtain ⟨m, -, rfl⟩ := List.mem_map.1 he
    trivial

theorem parseProgram_neat : ∀ (as : List TheoryAtom) (s s' : BState) (b : Bool), s.WF → 1 < s.nextLit →
    (∀ a ∈ as, litOk s.nextLit (env.solverLit a.lit)) → parseProgram pow env as s = .ok (b, s') → AtomNeat s s' := by
  intro as
  induction as with
  | nil =>
    intro s s' b hw hn _ h
    exact atomNeat' hw (Ext.refl _) (neat_pure (n := s.nextLit) _ _ _ (le_refl _) h)
  | cons a as ih =>
    intro s s' b hw hn hl h
    unfold parseProgram andThen at h
    obtain ⟨b1, s1, k1, h⟩ := bindS_ok h
    obtain ⟨g1, r1⟩ := parseAtom_neat hpow hw hn (hl a List.mem_cons_self) k1
    have key : AtomNeat s1 s' := by
      cases b1 with
      | false => exact atomNeat' g1.wf (Ext.refl _) (neat_pure (n := s1.nextLit) _ _ _ (le_refl _) h)
      | true =>
        exact ih s1 s' b g1.wf (lt_of_lt_of_le hn g1.next) (fun a ha => litOk_mono (hl a (List.mem_cons_of_mem _ ha)) g1.next) h
    obtain ⟨g2, r2⟩ := key
    refine ⟨g1.trans g2, fun hv => ?_⟩
    obtain ⟨n1, e1, f1⟩ := r1 (le_trans g2.num hv)
    obtain ⟨n2, e2, f2⟩ := r2 hv
    exact ⟨n1 ++ n2, by rw [e2, e1, List.append_assoc],
      fun e he => (List.mem_append.1 he).elim (fun h => properEv_mono (f1 e h) g2.next) (f2 e)⟩

end
end Clingcon
