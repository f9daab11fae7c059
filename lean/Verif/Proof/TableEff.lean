import Verif.Proof.Domain

/-! Effects of successful changes of tables. -/
set_option linter.unusedSimpArgs false

namespace Clingcon
open Spec VarState

theorem vecGet_inv {off : Int} {v : List Int} {k l : Int} (h : vecGet off v k = .ok l) :
    off ≤ k ∧ v[(k - off).toNat]? = some l := by
  unfold vecGet at h
  split_ifs at h with h1
  split at h
  · rename_i x e
    injection h with h
    subst h
    exact ⟨h1, e⟩
  · cases h

theorem vecSet_inv {off : Int} {v v' : List Int} {k x : Int} (h : vecSet off v k x = .ok v') :
    off ≤ k ∧ k < off + v.length := by
  unfold vecSet at h
  split_ifs at h with h1
  omega

theorem getLiteral_mem {vs : VarState} (hw : vs.WF) {k l : Int} (h : vs.getLiteral k = .ok (some l)) : (k, l) ∈ vs.with := by
  unfold VarState.getLiteral at h
  have hw' := hw
  unfold WF at hw'
  split at h
  · rename_i m e
    rw [e] at hw'
    injection h with h
    rw [mem_with_map e]
    exact (mapFind_iff hw'.1).mp h
  · rename_i off v e
    cases e1 : vecGet off v k with
    | error e => rw [e1] at h; cases h
    | ok x =>
      rw [e1] at h
      change Except.ok (if x != 0 then some x else none) = _ at h
      injection h with h
      split_ifs at h with h0
      injection h with h
      subst h
      obtain ⟨g1, g2⟩ := vecGet_inv e1
      rw [mem_with_vec e]
      exact ⟨by simpa using h0, g1, g2⟩

theorem unsetLiteral_eff {vs vs' : VarState} (hw : vs.WF) {k : Int} (h : vs.unsetLiteral k = .ok vs') : DelTab vs vs' k := by
  cases e : vs.table with
  | map m =>
    have hw' := hw
    unfold WF at hw'
    rw [e] at hw'
    unfold VarState.unsetLiteral at h
    rw [e] at h
    injection h with h
    subst h
    refine ⟨⟨mapErase_sorted hw'.1 k, ?_⟩, rfl, ?_⟩
    · rintro ⟨a, b⟩ hp
      rw [mapErase_mem] at hp
      exact hw'.2 _ hp.2
    · intro a b
      rw [mem_with_map rfl, mem_with_map e, mapErase_mem]
  | vec off v =>
    unfold VarState.unsetLiteral at h
    rw [e] at h
    cases e1 : vecSet off v k 0 with
    | error e => simp [e1, bind, Except.bind] at h
    | ok v1 =>
      simp [e1, bind, Except.bind, pure, Except.pure] at h
      obtain ⟨v', e2, a, b⟩ := vecSet_with hw e 0 (vecSet_inv e1)
      rw [e1] at e2
      injection e2 with e2
      subst e2
      subst h
      refine ⟨a, rfl, ?_⟩
      intro p q
      rw [b]
      split_ifs with hp <;> simp [hp]

theorem mogrify_any {vs : VarState} (hw : vs.WF) {m : List (Int × Int)} (e : vs.table = .map m) {o : Option Table}
    (h : vs.mogrify m = .ok o) : o = none ∨ ∃ off v, o = some (.vec off v) ∧
      ({ vs with table := .vec off v } : VarState).WF ∧
      ∀ k l, (k, l) ∈ ({ vs with table := .vec off v } : VarState).with ↔ (k, l) ∈ vs.with := by
  by_cases hlt : vs.minBound < vs.maxBound
  · rcases mogrify_with hw e hlt with h1 | ⟨off, v, h1, h2, h3, h4, h5⟩
    · rw [h1] at h; injection h with h; exact Or.inl h.symm
    · rw [h1] at h; injection h with h; exact Or.inr ⟨off, v, h.symm, h4, h5⟩
  · left
    unfold mogrify at h
    split_ifs at h with h1
    · split at h
      · rename_i f b hf hb
        split_ifs at h with h2
        · exfalso
          have hw' := hw
          unfold WF at hw'
          rw [e] at hw'
          obtain ⟨t, rfl⟩ : ∃ t, m = f :: t := by
            cases m with
            | nil => cases hf
            | cons x t => simp at hf; exact ⟨t, by rw [hf]⟩
          have : f.1 ≤ b.1 := by
            have hb' := List.mem_of_getLast? hb
            rcases List.mem_cons.mp hb' with rfl | hb'
            · exact le_refl _
            · exact le_of_lt ((List.pairwise_cons.mp hw'.1).1 _ hb')
          omega
        · injection h with h; exact h.symm
      · cases h
    · injection h with h; exact h.symm

theorem setLiteral_eff {vs vs' : VarState} (hw : vs.WF) {k x : Int} (hx : x ≠ 0) (h : vs.setLiteral k x = .ok vs') :
    SetTab vs vs' k x := by
  have vec : ∀ (us : VarState) (off : Int) (v v1 : List Int), us.WF → us.table = .vec off v → us = { vs with table := us.table } →
      (∀ k l, (k, l) ∈ us.with ↔ (k, l) ∈ vs.with) → vecSet off v k x = .ok v1 → SetTab vs { vs with table := .vec off v1 } k x := by
    intro us off v v1 huw he heq hm hv
    obtain ⟨v', e2, a, b⟩ := vecSet_with huw he x (vecSet_inv hv)
    rw [hv] at e2
    injection e2 with e2
    subst e2
    have hu : ({ us with table := .vec off v1 } : VarState) = { vs with table := .vec off v1 } := by rw [heq]
    rw [hu] at a b
    refine ⟨a, rfl, ?_⟩
    intro p q
    rw [b, hm]
    split_ifs <;> simp [hx]
  unfold VarState.setLiteral at h
  split at h
  · rename_i m e
    cases e1 : vs.mogrify m with
    | error e => simp [e1, bind, Except.bind] at h
    | ok o =>
      rcases mogrify_any hw e e1 with rfl | ⟨off, v, rfl, g1, g2⟩
      · simp [e1, bind, Except.bind, pure, Except.pure] at h
        subst h
        obtain ⟨a, b⟩ := mapSet_with hw e k x hx
        exact ⟨a, rfl, b⟩
      · simp only [e1, bind, Except.bind, pure, Except.pure] at h
        cases e2 : vecSet off v k x with
        | error e => simp [e2] at h
        | ok v1 =>
          simp [e2] at h
          subst h
          exact vec _ off v v1 g1 rfl rfl g2 e2
  · rename_i off v e
    cases e2 : vecSet off v k x with
    | error e => simp [e2, bind, Except.bind] at h
    | ok v1 =>
      simp [e2, bind, Except.bind, pure, Except.pure] at h
      subst h
      exact vec vs off v v1 hw e rfl (fun _ _ => Iff.rfl) e2

end Clingcon
