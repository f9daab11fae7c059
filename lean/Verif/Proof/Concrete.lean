import Verif.Proof.Order

/-! Boolean functions that decide for concrete states whether they are faithful to concrete assignments; used in examples only. -/
namespace Clingcon
open Spec

variable {β : Nat → Bool} {σ : Nat → Int} {W : World} {log : List SEv}

def litB (β : Nat → Bool) (l : Int) : Bool := if l > 0 then β l.natAbs else !β l.natAbs

theorem litB_iff {l : Int} : litB β l = true ↔ litTrue β l := by
  unfold litB litTrue
  split_ifs <;> simp

def evB (β : Nat → Bool) : SEv → Bool
  | .clause c => c.any (litB β)
  | .volatile c => c.any (litB β)
  | .weight lit wlits bound type => (decide (type < 0) || !litB β lit || decide (weightSum β wlits ≤ bound)) && (decide (type > 0) || decide (bound < weightSum β wlits) || litB β lit)
  | _ => true

def respB (β : Nat → Bool) (σ : Nat → Int) : SEv → Bool
  | .order l v k => litB β l == decide (σ v ≤ k)
  | _ => true

theorem respects_of (h : log.all (respB β σ) = true) : Respects β σ log := by
  intro l v k hm
  have := List.all_eq_true.mp h _ hm
  unfold respB at this
  rw [beq_iff_eq] at this
  rw [← litB_iff, this, decide_eq_true_iff]

theorem evHolds_of {e : SEv} (h : evB β e = true) : evHolds β e := by
  cases e with
  | clause c => obtain ⟨l, h1, h2⟩ := List.any_eq_true.mp h; exact ⟨l, h1, litB_iff.mp h2⟩
  | «volatile» c => obtain ⟨l, h1, h2⟩ := List.any_eq_true.mp h; exact ⟨l, h1, litB_iff.mp h2⟩
  | weight lit wlits bound type =>
    simp only [evB, Bool.and_eq_true, Bool.or_eq_true, decide_eq_true_eq, Bool.not_eq_true', ← Bool.not_eq_true, litB_iff] at h
    refine ⟨fun h1 h2 => ?_, fun h1 h2 => ?_⟩
    · rcases h.1 with (h3 | h3) | h3
      · omega
      · exact absurd h2 h3
      · exact h3
    · rcases h.2 with (h3 | h3) | h3
      · omega
      · omega
      · exact h3
  | _ => trivial

theorem allHold_of (h : log.all (evB β) = true) : AllHold β log := fun e he => evHolds_of (List.all_eq_true.mp h e he)

def factB (σ : Nat → Int) (p : Int × Nat × Int × Int) : Bool := if p.1 = TRUE_LIT then decide (σ p.2.1 ≤ p.2.2.1) else decide (p.2.2.1 < σ p.2.1)

theorem facts_of (h : W.factmap.all (factB σ) = true) : ∀ f v k p, (f, v, k, p) ∈ W.factmap → (if f = TRUE_LIT then σ v ≤ k else k < σ v) := by
  intro f v k p hm
  have := List.all_eq_true.mp h _ hm
  unfold factB at this
  dsimp only at this
  split_ifs at this with h1
  · rw [if_pos h1]; simpa using this
  · rw [if_neg h1]; simpa using this

def varB (β : Nat → Bool) (σ : Nat → Int) (vs : VarState) (v : Nat) : Bool :=
  (decide (vs.minBound ≤ σ v) && decide (σ v ≤ vs.maxBound)) && (vs.with.all (fun p => litB β p.2 == decide (σ v ≤ p.1)) &&
  match vs.table with
  | .map m => m.all (fun p => p.2 != 0) && ((m.map Prod.fst).zip ((m.map Prod.fst).drop 1)).all (fun p => decide (p.1 < p.2))
  | .vec off l => decide (off ≤ vs.minBound) && decide (vs.maxBound ≤ off + l.length))

theorem sorted_of : ∀ {m : List Int}, (m.zip (m.drop 1)).all (fun p => decide (p.1 < p.2)) = true → m.Pairwise (· < ·)
  | [], _ => List.Pairwise.nil
  | [a], _ => List.pairwise_singleton ..
  | a :: b :: m, h => by
    have h1 : ((a, b) :: ((b :: m).zip m)).all (fun p => decide (p.1 < p.2)) = true := h
    rw [List.all_cons, Bool.and_eq_true] at h1
    have h2 := sorted_of (m := b :: m) h1.2
    have h3 : a < b := by simpa using h1.1
    refine List.Pairwise.cons (fun x hx => ?_) h2
    rcases List.mem_cons.mp hx with rfl | hx
    · exact h3
    · exact lt_trans h3 ((List.pairwise_cons.mp h2).1 x hx)

def entryB (β : Nat → Bool) (σ : Nat → Int) (e : LitmapEntry) (i : Nat) : Bool :=
  e.prev == 0 || (litB β (if e.sign then (i + 1 : Nat) else -((i + 1 : Nat) : Int)) == decide (σ e.var ≤ e.value))

def invB (β : Nat → Bool) (σ : Nat → Int) (W : World) : Bool :=
  decide (0 < W.nextLit) && W.vars.zipIdx.all (fun p => varB β σ p.1 p.2) && W.litmap.zipIdx.all (fun p => entryB β σ p.1 p.2) &&
  W.factmap.all (factB σ) && W.log.all (evB β)

/-- Concrete states are faithful. -/
theorem inv_of (h : invB β σ W = true) : Inv β σ W := by
  unfold invB at h
  simp only [Bool.and_eq_true] at h
  obtain ⟨⟨⟨⟨h1, h2⟩, h3⟩, h4⟩, h5⟩ := h
  have hv : ∀ v vs, W.vars[v]? = some vs → varB β σ vs v = true := fun v vs hvs =>
    List.all_eq_true.mp h2 (vs, v) (List.mem_zipIdx_iff_getElem?.mpr hvs)
  refine ⟨⟨by simpa using h1, fun v vs hvs k l hm => ?_, fun v vs hvs => ?_, fun i e hie hp => ?_, facts_of h4, allHold_of h5⟩, fun v vs hvs => ?_⟩
  · have := hv v vs hvs
    unfold varB at this
    simp only [Bool.and_eq_true, List.all_eq_true] at this
    have h6 := this.2.1 _ hm
    rw [beq_iff_eq] at h6
    rw [← litB_iff, h6, decide_eq_true_iff]
  · have := hv v vs hvs
    unfold varB at this
    simp only [Bool.and_eq_true, decide_eq_true_eq] at this
    exact this.1
  · have := List.all_eq_true.mp h3 (e, i) (List.mem_zipIdx_iff_getElem?.mpr hie)
    unfold entryB at this
    simp only [Bool.or_eq_true, beq_iff_eq] at this
    rcases this with h6 | h6
    · exact absurd h6 hp
    · rw [← litB_iff, h6, decide_eq_true_iff]
  · have := hv v vs hvs
    unfold varB at this
    unfold VarState.WF
    have := (Bool.and_eq_true_iff.mp (Bool.and_eq_true_iff.mp this).2).2
    cases ht : vs.table with
    | vec a b =>
      rw [ht] at this
      simp only [Bool.and_eq_true, decide_eq_true_eq] at this
      exact this
    | map mp =>
      rw [ht] at this
      simp only [Bool.and_eq_true] at this
      refine ⟨?_, fun p hp => ?_⟩
      · exact List.pairwise_map.mp (sorted_of this.2)
      · have := (List.all_eq_true.mp this.1 p hp)
        simpa using this

end Clingcon
