import Verif.Model.Copy
import Verif.Spec.Copy
import Verif.Proof.Inactive

/-! Copying states. -/
namespace Clingcon
open Spec

variable {W W' M : World}

theorem stateOf_ok {n k : Nat} (h : stateOf M n = .ok k) : k = n := by
  unfold stateOf at h
  split at h
  · split at h
    · injection h with h; exact h.symm
    · cases h
  · cases h

theorem stateOf_exists {n : Nat} (h : exists_ M n) : stateOf M n = .ok n := by
  obtain ⟨c, h1, h2⟩ := h
  unfold stateOf
  rw [h1]
  simp [h2]

theorem copyList_ok : ∀ {ns ks : List Nat}, copyList M ns = .ok ks → ks = ns
  | [], ks, h => by injection h with h; exact h.symm
  | n :: ns, ks, h => by
    unfold copyList at h
    cases h1 : stateOf M n with
    | error => simp [h1, bind, Except.bind] at h
    | ok k =>
    cases h2 : copyList M ns with
    | error => simp [h1, h2, bind, Except.bind] at h
    | ok l =>
      simp [h1, h2, bind, Except.bind, pure, Except.pure] at h
      rw [← h, stateOf_ok h1, copyList_ok h2]

theorem copyList_exists : ∀ {ns : List Nat}, (∀ n ∈ ns, exists_ M n) → copyList M ns = .ok ns
  | [], _ => rfl
  | n :: ns, h => by
    unfold copyList
    rw [stateOf_exists (h n (by simp)), copyList_exists (fun k hk => h k (by simp [hk]))]
    rfl

theorem copyWatches_ok : ∀ {ns ks : List (Int × Nat)}, copyWatches M ns = .ok ks → ks = ns
  | [], ks, h => by injection h with h; exact h.symm
  | (i, n) :: ns, ks, h => by
    unfold copyWatches at h
    cases h1 : stateOf M n with
    | error => simp [h1, bind, Except.bind] at h
    | ok k =>
    cases h2 : copyWatches M ns with
    | error => simp [h1, h2, bind, Except.bind] at h
    | ok l =>
      simp [h1, h2, bind, Except.bind, pure, Except.pure] at h
      rw [← h, stateOf_ok h1, copyWatches_ok h2]

theorem copyWatches_exists : ∀ {ns : List (Int × Nat)}, (∀ n ∈ ns, exists_ M n.2) → copyWatches M ns = .ok ns
  | [], _ => rfl
  | (i, n) :: ns, h => by
    unfold copyWatches
    rw [stateOf_exists (h (i, n) (by simp)), copyWatches_exists (fun k hk => h k (by simp [hk]))]
    rfl

theorem copyVarWatches_ok : ∀ {ns ks : List (List (Int × Nat))}, copyVarWatches M ns = .ok ks → ks = ns
  | [], ks, h => by injection h with h; exact h.symm
  | n :: ns, ks, h => by
    unfold copyVarWatches at h
    cases h1 : copyWatches M n with
    | error => simp [h1, bind, Except.bind] at h
    | ok k =>
    cases h2 : copyVarWatches M ns with
    | error => simp [h1, h2, bind, Except.bind] at h
    | ok l =>
      simp [h1, h2, bind, Except.bind, pure, Except.pure] at h
      rw [← h, copyWatches_ok h1, copyVarWatches_ok h2]

theorem copyVarWatches_exists : ∀ {ns : List (List (Int × Nat))}, (∀ l ∈ ns, ∀ n ∈ l, exists_ M n.2) → copyVarWatches M ns = .ok ns
  | [], _ => rfl
  | l :: ns, h => by
    unfold copyVarWatches
    rw [copyWatches_exists (h l (by simp)), copyVarWatches_exists (fun k hk => h k (by simp [hk]))]
    rfl

theorem copyRemoved_ok : ∀ {ns ks : List (Nat × Int × Nat)}, copyRemoved M ns = .ok ks → ks = ns
  | [], ks, h => by injection h with h; exact h.symm
  | (v, i, n) :: ns, ks, h => by
    unfold copyRemoved at h
    cases h1 : stateOf M n with
    | error => simp [h1, bind, Except.bind] at h
    | ok k =>
    cases h2 : copyRemoved M ns with
    | error => simp [h1, h2, bind, Except.bind] at h
    | ok l =>
      simp [h1, h2, bind, Except.bind, pure, Except.pure] at h
      rw [← h, stateOf_ok h1, copyRemoved_ok h2]

theorem copyRemoved_exists : ∀ {ns : List (Nat × Int × Nat)}, (∀ n ∈ ns, exists_ M n.2.2) → copyRemoved M ns = .ok ns
  | [], _ => rfl
  | (v, i, n) :: ns, h => by
    unfold copyRemoved
    rw [stateOf_exists (h (v, i, n) (by simp)), copyRemoved_exists (fun k hk => h k (by simp [hk]))]
    rfl

theorem copy_same {c : CState} : sameState c c.copy := by
  unfold sameState CState.copy
  cases h : c.con <;> simp [h]

theorem masterRun_proper {d d' : Bool} {ops : List Op} (h : MasterRun d ops W d' W') : ProperRun d ops W d' W' := by
  induction h with
  | nil => exact .nil _ _
  | cons h1 h2 h3 _ ih => exact .cons h1 h2.1 h3 ih

theorem masterRun_ia {d d' : Bool} {ops : List Op} (h : MasterRun d ops W d' W') : IA W.book → IA W'.book := by
  induction h with
  | nil => exact id
  | cons h1 h2 h3 _ ih => exact fun hq => ih (ia_step h2.2 h3 hq)

theorem properRun_wi {d d' : Bool} {ops : List Op} (h : ProperRun d ops W d' W') : WI W → WI W' := by
  induction h with
  | nil => exact id
  | cons h1 h2 h3 _ ih => exact fun hq => ih (step_eff h1 h3 hq).1

end Clingcon
