import Verif.Props.TranslateLoop
import Verif.Spec.Given
import Verif.Props.Levels

/-! C17: the order clauses added when translating constraints. -/
set_option linter.unusedVariables false
namespace Clingcon.Props
open Clingcon Spec

variable {cc : CC} {tc : TConf} {fuel : Nat} {β : Nat → Bool} {σ : Nat → Int} {W W' : World} {r : Bool}

/-- What is posted for the literals of a variable. -/
theorem orderClauses_log : ∀ {ls : List Int} {p : Int} {W W' : World} {r : Bool}, orderClauses cc p ls W = .ok (r, W') →
    ∃ new, W' = { W with log := new ++ W.log } ∧
      (∀ e ∈ new, ∃ a b, e = .clause [-a, b] ∧ [a, b] <:+: p :: ls) ∧
      (r = true → ∀ a b, [a, b] <:+: p :: ls → a ≠ -TRUE_LIT → SEv.clause [-a, b] ∈ new)
  | [], p, W, W', r, h => by
    obtain ⟨rfl, rfl⟩ := pure_iff.mp h
    refine ⟨[], rfl, by simp, fun _ a b hab => ?_⟩
    have := hab.length_le
    simp at this
  | l :: ls, p, W, W', r, h => by
    unfold orderClauses at h
    have split : ∀ a b, [a, b] <:+: p :: l :: ls → (a = p ∧ b = l) ∨ [a, b] <:+: l :: ls := by
      intro a b hab
      rcases List.infix_cons_iff.mp hab with hp | hi
      · obtain ⟨t, ht⟩ := hp
        simp only [List.cons_append, List.nil_append, List.cons.injEq] at ht
        exact Or.inl ⟨ht.1, ht.2.1⟩
      · exact Or.inr hi
    by_cases hp : p ≠ -TRUE_LIT
    · rw [if_pos hp] at h
      rw [bind_iff] at h
      obtain ⟨b, W1, h1, h⟩ := h
      obtain ⟨-, rfl⟩ := addClause_iff.mp h1
      cases b with
      | false =>
        obtain ⟨rfl, rfl⟩ := pure_iff.mp h
        refine ⟨[.clause [-p, l]], rfl, fun e he => ?_, fun h => by cases h⟩
        rw [List.mem_singleton] at he
        exact ⟨p, l, he, ⟨[], ls, rfl⟩⟩
      | true =>
        simp only [Bool.not_true, Bool.false_eq_true, if_false] at h
        obtain ⟨new, e, n1, n2⟩ := orderClauses_log h
        refine ⟨new ++ [.clause [-p, l]], by rw [e]; simp, fun e he => ?_, fun hr a b hab ha => ?_⟩
        · rcases List.mem_append.mp he with he | he
          · obtain ⟨a, b, h1, h2⟩ := n1 e he
            exact ⟨a, b, h1, h2.trans (List.suffix_cons _ _).isInfix⟩
          · rw [List.mem_singleton] at he
            exact ⟨p, l, he, ⟨[], ls, rfl⟩⟩
        · rcases split a b hab with ⟨rfl, rfl⟩ | hi
          · exact List.mem_append_right _ (List.mem_singleton.mpr rfl)
          · exact List.mem_append_left _ (n2 hr a b hi ha)
    · rw [if_neg hp] at h
      obtain ⟨new, e, n1, n2⟩ := orderClauses_log h
      refine ⟨new, e, fun e he => ?_, fun hr a b hab ha => ?_⟩
      · obtain ⟨a, b, h1, h2⟩ := n1 e he
        exact ⟨a, b, h1, h2.trans (List.suffix_cons _ _).isInfix⟩
      · rcases split a b hab with ⟨rfl, rfl⟩ | hi
        · exact absurd ha hp
        · exact n2 hr a b hi ha

theorem allOrderClauses_log : ∀ {vss : List VarState} {W W' : World} {r : Bool}, allOrderClauses cc vss W = .ok (r, W') →
    ∃ new, W' = { W with log := new ++ W.log } ∧
      (∀ e ∈ new, ∃ vs ∈ vss, ∃ a b, e = .clause [-a, b] ∧ [a, b] <:+: -TRUE_LIT :: vs.with.map Prod.snd) ∧
      (r = true → ∀ vs ∈ vss, ∀ a b, [a, b] <:+: vs.with.map Prod.snd → a ≠ -TRUE_LIT → SEv.clause [-a, b] ∈ new)
  | [], W, W', r, h => by
    obtain ⟨rfl, rfl⟩ := pure_iff.mp h
    exact ⟨[], rfl, by simp, fun _ vs hvs => by cases hvs⟩
  | vs :: vss, W, W', r, h => by
    unfold allOrderClauses at h
    rw [bind_iff] at h
    obtain ⟨b, W1, h1, h⟩ := h
    obtain ⟨n1, e1, k1, k2⟩ := orderClauses_log h1
    cases b with
    | false =>
      obtain ⟨rfl, rfl⟩ := pure_iff.mp h
      refine ⟨n1, e1, fun e he => ?_, fun h => by cases h⟩
      exact ⟨vs, List.mem_cons_self .., k1 e he⟩
    | true =>
      simp only [Bool.not_true, Bool.false_eq_true, if_false] at h
      obtain ⟨n2, e2, k3, k4⟩ := allOrderClauses_log h
      refine ⟨n2 ++ n1, by rw [e2, e1]; simp, fun e he => ?_, fun hr vs' hvs a b hab ha => ?_⟩
      · rcases List.mem_append.mp he with he | he
        · obtain ⟨vs', hv, h⟩ := k3 e he
          exact ⟨vs', List.mem_cons_of_mem _ hv, h⟩
        · exact ⟨vs, List.mem_cons_self .., k1 e he⟩
      · rcases List.mem_cons.mp hvs with rfl | hvs
        · exact List.mem_append_right _ (k2 rfl a b (hab.trans (List.suffix_cons _ _).isInfix) ha)
        · exact List.mem_append_left _ (k4 hr vs' hvs a b hab ha)

theorem chain_up {ls : List (Int × Int)} (hc : ∀ a b, [a, b] <:+: ls.map Prod.snd → litTrue β a → litTrue β b) (hs : (ls.map Prod.fst).Pairwise (· < ·)) :
    ∀ {k k' l l' : Int}, (k, l) ∈ ls → (k', l') ∈ ls → k ≤ k' → litTrue β l → litTrue β l' := by
  have first : ∀ (ls : List (Int × Int)) (a : Int), (∀ x y, [x, y] <:+: a :: ls.map Prod.snd → litTrue β x → litTrue β y) → litTrue β a → ∀ p ∈ ls, litTrue β p.2 := by
    intro ls
    induction ls with
    | nil => intro a _ _ p hp; cases hp
    | cons q qs ih =>
      intro a h1 ha p hp
      have hq : litTrue β q.2 := h1 a q.2 ⟨[], qs.map Prod.snd, rfl⟩ ha
      rcases List.mem_cons.mp hp with rfl | hp
      · exact hq
      · exact ih q.2 (fun x y hxy => h1 x y (hxy.trans (List.suffix_cons _ _).isInfix)) hq p hp
  induction ls with
  | nil => intro k k' l l' h; cases h
  | cons q qs ih =>
    intro k k' l l' h1 h2 hk hl
    rw [List.map_cons, List.pairwise_cons] at hs
    have lt : ∀ p ∈ qs, q.1 < p.1 := fun p hp => hs.1 _ (List.mem_map_of_mem hp)
    rcases List.mem_cons.mp h1 with rfl | h3
    · rcases List.mem_cons.mp h2 with e | h2
      · injection e with e1 e2; rw [e2]; exact hl
      · exact first qs l hc hl _ h2
    · rcases List.mem_cons.mp h2 with rfl | h2
      · have := lt _ h3
        dsimp only at this
        omega
      · exact ih (fun a b hab => hc a b (hab.trans (List.suffix_cons _ _).isInfix)) hs.2 h3 h2 hk hl

theorem infix_map {ls : List (Int × Int)} {a b : Int} (h : [a, b] <:+: ls.map Prod.snd) : ∃ k k', [(k, a), (k', b)] <:+: ls := by
  obtain ⟨s, t, e⟩ := h
  rw [List.append_assoc] at e
  obtain ⟨l1, l2, rfl, -, e2⟩ := List.map_eq_append_iff.mp e.symm
  cases l2 with
  | nil => cases e2
  | cons x l3 =>
    cases l3 with
    | nil => simp at e2
    | cons y l4 =>
      simp only [List.map_cons, List.cons_append, List.nil_append, List.cons.injEq] at e2
      obtain ⟨rfl, rfl, -⟩ := e2
      exact ⟨x.1, y.1, l1, l4, by simp⟩

/-- **C17** The clauses added for the order literals of all variables enforce that the order literals of a variable are monotone: if the
literal for a value is true, then so are the ones for greater values. -/
theorem C17_monotone (hw : AllWF W) (ht : litTrue β 1) (h : allOrderClauses cc W.vars W = .ok (true, W')) (ha : AllHold β W'.log)
    {v : Nat} {k k' l l' : Int} (h1 : OrdLit W v k l) (h2 : OrdLit W v k' l') (hk : k ≤ k') (hl : litTrue β l) : litTrue β l' := by
  obtain ⟨new, e, -, hn⟩ := allOrderClauses_log h
  obtain ⟨vs, hv, hm⟩ := h1
  obtain ⟨vs', hv', hm'⟩ := h2
  rw [hv] at hv'
  injection hv' with hv'
  subst hv'
  refine chain_up (ls := vs.with) (fun a b hab hla => ?_) (List.pairwise_map.mpr (VarState.with_sorted (hw v vs hv))) hm hm' hk hl
  have ha1 : a ≠ -TRUE_LIT := by
    rintro rfl
    exact ((Spec.litTrue_neg β 1 (by decide)).mp hla) ht
  have hnew := hn rfl vs (List.mem_of_getElem? hv) a b hab ha1
  obtain ⟨x, y, hxy⟩ := infix_map hab
  have h0 : a ≠ 0 := VarState.with_nonzero (hw v vs hv) (hxy.subset (List.mem_cons_self ..))
  obtain ⟨m, hm, hml⟩ := ha (.clause [-a, b]) (by rw [e]; exact List.mem_append_left _ hnew)
  simp only [List.mem_cons, List.not_mem_nil, or_false] at hm
  rcases hm with rfl | rfl
  · exact absurd hla ((Spec.litTrue_neg β a h0).mp hml)
  · exact hml

/-- **C17** The clauses hold for each assignment of values when order literals are read as "variable ≤ value". -/
theorem C17_monotone_sound (hi : Inv β σ W) (ht : litTrue β 1) (h : allOrderClauses cc W.vars W = .ok (r, W')) : Inv β σ W' := by
  obtain ⟨new, rfl, hn, -⟩ := allOrderClauses_log h
  refine ⟨⟨hi.good.pos, hi.good.table, hi.good.bound, hi.good.litmap, hi.good.facts, fun e he => ?_⟩, hi.wf⟩
  rcases List.mem_append.mp he with he | he
  · obtain ⟨vs, hvs, a, b, rfl, hab⟩ := hn e he
    obtain ⟨v, hv⟩ := List.getElem?_of_mem hvs
    rcases List.infix_cons_iff.mp hab with hp | hab
    · obtain ⟨t, ht'⟩ := hp
      simp only [List.cons_append, List.nil_append, List.cons.injEq] at ht'
      obtain ⟨rfl, -⟩ := ht'
      exact ⟨1, by simp [TRUE_LIT], ht⟩
    · obtain ⟨x, y, hxy⟩ := infix_map hab
      have hx : (x, a) ∈ vs.with := hxy.subset (List.mem_cons_self ..)
      have hy : (y, b) ∈ vs.with := hxy.subset (List.mem_cons_of_mem _ (List.mem_cons_self ..))
      have hlt : x < y := by
        have := List.Pairwise.sublist hxy.sublist (VarState.with_sorted (hi.wf v vs hv))
        exact (List.pairwise_cons.mp this).1 _ (List.mem_cons_self ..)
      have h0 : a ≠ 0 := VarState.with_nonzero (hi.wf v vs hv) hx
      by_cases hla : litTrue β a
      · have := (hi.good.table v vs hv x a hx).mp hla
        exact ⟨b, by simp, (hi.good.table v vs hv y b hy).mpr (by omega)⟩
      · exact ⟨-a, by simp, (Spec.litTrue_neg β a h0).mpr hla⟩
  · exact hi.good.posted e he

/-- **C17** After translating constraints with the option for order clauses, the literals of each variable are monotone in each
assignment satisfying the clauses posted. -/
theorem C17_translate_monotone {steps : Nat} {v kept : List TCon} (hw : AllWF W') (ht : litTrue β 1) (ho : tc.orderClauses = true)
    (h : solverTranslate cc tc fuel steps v W = .ok ((true, kept), W')) (ha : AllHold β W'.log)
    {u : Nat} {k k' l l' : Int} (h1 : OrdLit W' u k l) (h2 : OrdLit W' u k' l') (hk : k ≤ k') (hl : litTrue β l) : litTrue β l' := by
  unfold solverTranslate at h
  rw [bind_iff] at h
  obtain ⟨o, W1, -, h⟩ := h
  cases o with
  | none =>
    obtain ⟨h, -⟩ := pure_iff.mp h
    cases h
  | some p =>
    dsimp only at h
    rw [bind_iff] at h
    obtain ⟨_, W2, -, h⟩ := h
    rw [if_pos ho, bind_iff] at h
    obtain ⟨X, W3, h3, h⟩ := h
    obtain ⟨rfl, rfl⟩ := get_iff.mp h3
    rw [bind_iff] at h
    obtain ⟨ret, W4, h4, h⟩ := h
    obtain ⟨e, rfl⟩ := pure_iff.mp h
    obtain ⟨rfl, -⟩ := Prod.mk.inj e
    obtain ⟨new, e, -⟩ := allOrderClauses_log h4
    have ev : W'.vars = W3.vars := by rw [e]
    refine C17_monotone (W := W3) ?_ ht h4 ha (v := u) (k := k) (k' := k') (l := l) (l' := l') ?_ ?_ hk hl
    · unfold AllWF; rw [← ev]; exact hw
    · unfold OrdLit; rw [← ev]; exact h1
    · unfold OrdLit; rw [← ev]; exact h2

/-! ### A concrete case -/

/-- A variable with order literals for three values. -/
def ordered : World := (tryRun [.addVar 0 10, .literal (assigns 0 []) 0 5, .literal (assigns 0 []) 0 2, .literal (assigns 0 []) 0 7] (World.init 2)).getD (World.init 2)

/-- The hypotheses of `C17_monotone` are met, and two clauses are added. -/
example : Reach ordered ∧ (allOrderClauses (assigns 0 []) ordered.vars ordered).toOption.map (fun p => (p.1, p.2.log.take 2)) =
    some (true, [.clause [2, -4], .clause [3, -2]]) :=
  ⟨⟨2, _, by decide, tryRun_getD (by decide +kernel)⟩, by decide +kernel⟩

end Clingcon.Props
