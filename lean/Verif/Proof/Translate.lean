import Verif.Model.Translate
import Verif.Proof.Sum
import Verif.Spec.Bounds
import Mathlib.Tactic.Linarith

/-! The translation of linear constraints to weight constraints. -/
set_option linter.unusedSimpArgs false
namespace Clingcon
open Spec

variable {β : Nat → Bool} {σ : Nat → Int} {F : List VarState × Book} {m : Bool} {α : Type}

/-- Literals for consecutive values of a variable with value `s`. -/
def RangeOK (β : Nat → Bool) (s : Int) : Int → List Int → Prop
  | _, [] => True
  | i, l :: ls => l ≠ 0 ∧ (litTrue β l ↔ s ≤ i) ∧ RangeOK β s (i + 1) ls

theorem ext_litRange {cc : CC} {var : Nat} : ∀ {n : Nat} {i : Int}, Ext' m (litRange cc var n i) := by
  intro n
  induction n with
  | zero => intro i; exact Ext'.pure
  | succ n ih => intro i; unfold litRange; exact Ext'.bind ext_getLiteral (fun _ => Ext'.bind ih (fun _ => Ext'.pure))

theorem tr_litRange {cc : CC} {var : Nat} (tt : litTrue β 1) : ∀ {n : Nat} {i : Int},
    Tr β σ m (InvF β σ F) (litRange cc var n i) (fun ls W => InvF β σ F W ∧ ls.length = n ∧ RangeOK β (σ var) i ls) := by
  intro n
  induction n with
  | zero => intro i; exact Tr.pure (fun _ h => ⟨h, rfl, trivial⟩)
  | succ n ih =>
    intro i
    unfold litRange
    refine Tr.bindP (tr_getLiteral tt) (fun _ => ?_) (fun l hl => ?_)
    · exact Ext'.bind ext_litRange (fun _ => Ext'.pure)
    refine Tr.bindP ih (fun _ => Ext'.pure) (fun ls hls => ?_)
    exact Tr.pure (fun _ h => ⟨h, by simp [hls.1], hl.1, hl.2, hls.2⟩)

open Classical in
theorem weightSum_cons {l w : Int} {ws : List (Int × Int)} :
    weightSum β ((l, w) :: ws) = (if litTrue β l then w else 0) + weightSum β ws := by
  show (if l > 0 then (if β l.natAbs then w else 0) else (if β l.natAbs then 0 else w)) + weightSum β ws = _
  unfold litTrue
  by_cases h : l > 0 <;> cases β l.natAbs <;> simp [h]

theorem weightSum_append {a b : List (Int × Int)} : weightSum β (a ++ b) = weightSum β a + weightSum β b := by
  induction a with
  | nil => simp [weightSum]
  | cons p a ih => rw [List.cons_append, weightSum, weightSum, ih]; ring

theorem weightSum_gt {s co : Int} : ∀ {ls : List Int} {i : Int}, RangeOK β s i ls →
    weightSum β (ls.map (fun l => (-l, co))) = co * min (max (s - i) 0) ls.length := by
  intro ls
  induction ls with
  | nil => intro i _; simp only [List.map_nil, weightSum, List.length_nil, Nat.cast_zero]; rw [min_eq_right (le_max_right _ _)]; simp
  | cons l ls ih =>
    intro i h
    rw [List.map_cons, weightSum_cons, ih h.2.2, Spec.litTrue_neg _ _ h.1, h.2.1]
    rw [List.length_cons]
    by_cases hs : s ≤ i
    · rw [if_neg (by simpa using hs)]
      have e1 : max (s - i) 0 = 0 := by omega
      have e2 : max (s - (i + 1)) 0 = 0 := by omega
      rw [e1, e2, min_eq_left (by omega), min_eq_left (by omega)]; simp
    · rw [if_pos hs]
      have : min (max (s - i) 0) ((ls.length + 1 : Nat) : Int) = min (max (s - (i + 1)) 0) ls.length + 1 := by omega
      rw [this]; ring

theorem weightSum_le {s co : Int} : ∀ {ls : List Int} {i : Int}, RangeOK β s i ls →
    weightSum β (ls.map (fun l => (l, co))) = co * (ls.length - min (max (s - i) 0) ls.length) := by
  intro ls
  induction ls with
  | nil => intro i _; simp only [List.map_nil, weightSum, List.length_nil, Nat.cast_zero]; rw [min_eq_right (le_max_right _ _)]; simp
  | cons l ls ih =>
    intro i h
    rw [List.map_cons, weightSum_cons, ih h.2.2, h.2.1]
    rw [List.length_cons]
    by_cases hs : s ≤ i
    · rw [if_pos hs]
      have e1 : max (s - i) 0 = 0 := by omega
      have e2 : max (s - (i + 1)) 0 = 0 := by omega
      rw [e1, e2, min_eq_left (by omega), min_eq_left (by omega)]; push_cast; ring
    · rw [if_neg hs]
      have : min (max (s - i) 0) ((ls.length + 1 : Nat) : Int) = min (max (s - (i + 1)) 0) ls.length + 1 := by omega
      rw [this]; push_cast; ring

/-- By how much an element exceeds its least value. -/
def devOf (lo up σ : Nat → Int) (e : Int × Nat) : Int := if e.1 > 0 then e.1 * (σ e.2 - lo e.2) else (-e.1) * (up e.2 - σ e.2)

def devSum (lo up σ : Nat → Int) (es : CoVarVec) : Int := (es.map (devOf lo up σ)).sum

theorem devSum_eq {lo up : Nat → Int} {es : CoVarVec} : devSum lo up σ es = wsum σ es - leastSum lo up es := by
  unfold devSum
  induction es with
  | nil => rfl
  | cons e es ih =>
    obtain ⟨co, v⟩ := e
    rw [List.map_cons, List.sum_cons, ih, wsum_cons, leastSum]
    unfold devOf
    dsimp only
    split_ifs <;> ring

/-- The values of the variables of a term are within bounds. -/
def Within (lo up σ : Nat → Int) (es : CoVarVec) : Prop := ∀ e ∈ es, lo e.2 ≤ σ e.2 ∧ σ e.2 ≤ up e.2

theorem devOf_nonneg {lo up : Nat → Int} {e : Int × Nat} (h : lo e.2 ≤ σ e.2 ∧ σ e.2 ≤ up e.2) : 0 ≤ devOf lo up σ e := by
  unfold devOf
  split_ifs with hc
  · exact mul_nonneg (by omega) (by omega)
  · exact mul_nonneg (by omega) (by omega)

theorem devSum_nonneg {lo up : Nat → Int} {es : CoVarVec} (h : Within lo up σ es) : 0 ≤ devSum lo up σ es := by
  unfold devSum
  induction es with
  | nil => simp
  | cons e es ih =>
    rw [List.map_cons, List.sum_cons]
    exact add_nonneg (devOf_nonneg (h e (by simp))) (ih (fun x hx => h x (by simp [hx])))

/-- A value that is `d` or both exceed the slack. -/
def Cut (slack g d : Int) : Prop := 0 ≤ g ∧ g ≤ d ∧ (g = d ∨ slack < g)

theorem Cut.iff {slack g d : Int} (h : Cut slack g d) : g ≤ slack ↔ d ≤ slack := by
  obtain ⟨h1, h2, h3⟩ := h
  rcases h3 with rfl | h3
  · rfl
  · constructor <;> intro <;> omega

theorem Cut.add {slack g d g' d' : Int} (h : Cut slack g d) (h' : Cut slack g' d') : Cut slack (g + g') (d + d') := by
  obtain ⟨h1, h2, h3⟩ := h
  obtain ⟨h1', h2', h3'⟩ := h'
  exact ⟨by omega, by omega, by omega⟩

theorem cut_pos {slack co s lo hi e : Int} (hco : 0 < co) (hs0 : lo ≤ s) (hs1 : s ≤ hi)
    (he : e = min (cutUpper slack co lo + 1) hi) (hle : lo ≤ e) :
    Cut slack (co * min (max (s - lo) 0) ((e - lo).toNat : Int)) (co * (s - lo)) := by
  have e1 : max (s - lo) 0 = s - lo := by omega
  have e2 : ((e - lo).toNat : Int) = e - lo := by omega
  rw [e1, e2]
  have h0 : 0 ≤ min (s - lo) (e - lo) := by omega
  refine ⟨mul_nonneg (by omega) h0, mul_le_mul_of_nonneg_left (by omega) (by omega), ?_⟩
  by_cases h : s ≤ e
  · left; rw [min_eq_left (by omega)]
  · right
    rw [min_eq_right (by omega)]
    have : e = cutUpper slack co lo + 1 := by omega
    unfold cutUpper at this
    have hb := ((floordiv_bounds (slack + co * lo) co (by omega)).1 hco).2
    rw [this]
    linarith [hb]

theorem cut_neg {slack co s lo hi b : Int} (hco : co < 0) (hs0 : lo ≤ s) (hs1 : s ≤ hi)
    (hb : b = max (cutLower slack co hi - 1) lo) (hle : b ≤ hi) :
    Cut slack (-co * (((hi - b).toNat : Int) - min (max (s - b) 0) ((hi - b).toNat : Int))) (-co * (hi - s)) := by
  have e2 : ((hi - b).toNat : Int) = hi - b := by omega
  rw [e2]
  have h0 : 0 ≤ (hi - b) - min (max (s - b) 0) (hi - b) := by omega
  refine ⟨mul_nonneg (by omega) h0, mul_le_mul_of_nonneg_left (by omega) (by omega), ?_⟩
  by_cases h : b ≤ s
  · left
    have : (hi - b) - min (max (s - b) 0) (hi - b) = hi - s := by omega
    rw [this]
  · right
    have : (hi - b) - min (max (s - b) 0) (hi - b) = hi - b := by omega
    rw [this]
    have : b = cutLower slack co hi - 1 := by omega
    unfold cutLower at this
    have hb := ((floordiv_bounds (slack + co * hi) (-co) (by omega)).1 (by omega)).2
    rw [this]
    linarith [hb]

theorem ext_weightLits {cc : CC} {slack : Int} : ∀ {es : CoVarVec}, Ext' m (weightLits cc slack es) := by
  intro es
  induction es with
  | nil => exact Ext'.pure
  | cons e es ih =>
    obtain ⟨co, v⟩ := e
    unfold weightLits
    refine Ext'.bind Ext'.getVar (fun vs => ?_)
    split
    · exact Ext'.bind Ext'.assertS (fun _ => Ext'.bind Ext'.assertS (fun _ => Ext'.bind ext_litRange (fun _ => Ext'.bind ih (fun _ => Ext'.pure))))
    · exact Ext'.bind Ext'.assertS (fun _ => Ext'.bind Ext'.assertS (fun _ => Ext'.bind ext_litRange (fun _ => Ext'.bind ih (fun _ => Ext'.pure))))

theorem tr_assertP {b : Bool} {P : World → Prop} {x : Unit → SM α} {Q : α → World → Prop} (hx : Ext' m (x ())) (h : b = true → Tr β σ m P (x ()) Q) :
    Tr β σ m P (assertS b >>= x) Q := by
  refine Tr.bind (Q := fun _ W => P W ∧ b = true) (Tr.assertS (fun hb _ h => ⟨h, hb⟩)) (fun _ => ?_)
  exact Tr.assume hx h

theorem tr_weightLits {cc : CC} {slack : Int} (tt : litTrue β 1) : ∀ {es : CoVarVec}, (∀ e ∈ es, e.1 ≠ 0) → Within (loF F) (upF F) σ es →
    Tr β σ m (InvF β σ F) (weightLits cc slack es) (fun ws W => InvF β σ F W ∧ Cut slack (weightSum β ws) (devSum (loF F) (upF F) σ es)) := by
  intro es
  induction es with
  | nil => intro _ _; exact Tr.pure (fun _ h => ⟨h, by simp [weightSum, devSum, Cut]⟩)
  | cons e es ih =>
    intro h0 hw
    have hwe := hw e (by simp)
    have ih := ih (fun x hx => h0 x (by simp [hx])) (fun x hx => hw x (by simp [hx]))
    have hne := h0 e (by simp)
    obtain ⟨co, v⟩ := e
    dsimp only at hwe hne
    unfold weightLits
    refine Tr.getVarF (fun _ => ?_) (fun vs _ _ _ _ hlo hup => ?_)
    · split
      · exact Ext'.bind Ext'.assertS (fun _ => Ext'.bind Ext'.assertS (fun _ => Ext'.bind ext_litRange (fun _ => Ext'.bind ext_weightLits (fun _ => Ext'.pure))))
      · exact Ext'.bind Ext'.assertS (fun _ => Ext'.bind Ext'.assertS (fun _ => Ext'.bind ext_litRange (fun _ => Ext'.bind ext_weightLits (fun _ => Ext'.pure))))
    rw [← hlo, ← hup] at hwe
    refine Tr.ite (fun hc => ?_) (fun hc => ?_)
    · refine tr_assertP (Ext'.bind Ext'.assertS (fun _ => Ext'.bind ext_litRange (fun _ => Ext'.bind ext_weightLits (fun _ => Ext'.pure)))) (fun _ => ?_)
      refine tr_assertP (Ext'.bind ext_litRange (fun _ => Ext'.bind ext_weightLits (fun _ => Ext'.pure))) (fun hle => ?_)
      simp only [decide_eq_true_eq] at hle
      refine Tr.bindP (tr_litRange tt) (fun _ => Ext'.bind ext_weightLits (fun _ => Ext'.pure)) (fun ls hls => ?_)
      refine Tr.bindP ih (fun _ => Ext'.pure) (fun ws hws => ?_)
      refine Tr.pure (fun _ h => ⟨h, ?_⟩)
      rw [weightSum_append]
      have : devSum (loF F) (upF F) σ ((co, v) :: es) = co * (σ v - vs.lower) + devSum (loF F) (upF F) σ es := by
        unfold devSum; rw [List.map_cons, List.sum_cons]; unfold devOf; dsimp only; rw [if_pos hc, hlo]
      rw [this]
      refine Cut.add ?_ hws
      rw [weightSum_gt hls.2, hls.1]
      exact cut_pos hc hwe.1 hwe.2 rfl hle
    · refine tr_assertP (Ext'.bind Ext'.assertS (fun _ => Ext'.bind ext_litRange (fun _ => Ext'.bind ext_weightLits (fun _ => Ext'.pure)))) (fun _ => ?_)
      refine tr_assertP (Ext'.bind ext_litRange (fun _ => Ext'.bind ext_weightLits (fun _ => Ext'.pure))) (fun hle => ?_)
      simp only [decide_eq_true_eq] at hle
      refine Tr.bindP (tr_litRange tt) (fun _ => Ext'.bind ext_weightLits (fun _ => Ext'.pure)) (fun ls hls => ?_)
      refine Tr.bindP ih (fun _ => Ext'.pure) (fun ws hws => ?_)
      refine Tr.pure (fun _ h => ⟨h, ?_⟩)
      rw [weightSum_append]
      have : devSum (loF F) (upF F) σ ((co, v) :: es) = -co * (vs.upper - σ v) + devSum (loF F) (upF F) σ es := by
        unfold devSum; rw [List.map_cons, List.sum_cons]; unfold devOf; dsimp only; rw [if_neg hc, hup]
      rw [this]
      refine Cut.add ?_ hws
      rw [weightSum_le hls.2, hls.1]
      exact cut_neg (by omega) hwe.1 hwe.2 rfl hle

end Clingcon
