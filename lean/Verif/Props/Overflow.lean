import Verif.Proof.Machine
import Verif.Props.Attach
import Verif.Props.Levels
import Verif.Props.Simplify
import Verif.Model.Parsing

/-! C48: the arithmetic of linear constraints does not overflow. -/
namespace Clingcon.Props
open Spec

variable {W : World} {cc : CC}

/-- The largest absolute value that a sum over valid values can have. -/
def largest (es : List (Int × Nat)) : Int := (es.map (fun t => |t.1| * (2 ^ 30 - 1))).sum

theorem largest_eq : ∀ {es : List (Int × Nat)}, reach64 es = largest es
  | [] => rfl
  | e :: es => by
    rw [reach64, largest_eq]
    unfold largest
    rw [List.map_cons, List.sum_cons]
    norm_num

theorem init_boxed {n : Int} : Boxed MIN_VAL MAX_VAL (World.init n) :=
  ⟨fun _ h => absurd h (List.not_mem_nil), fun _ h => absurd h (List.not_mem_nil)⟩

theorem min_val' : MIN_VAL = -1073741823 := rfl
theorem max_val' : MAX_VAL = 1073741823 := rfl

/-- **C48** If variables are added with valid bounds, then all bounds are valid after any sequence of calls. -/
theorem C48_bounds {n : Int} {ops : List Op} (h : Run ops (World.init n) W)
    (hb : ∀ lo up, Op.addVar lo up ∈ ops → MIN_VAL ≤ lo ∧ up ≤ MAX_VAL) {v : Nat} {vs : VarState} (hv : W.vars[v]? = some vs) :
    MIN_VAL ≤ vs.lower ∧ vs.lower ≤ vs.upper ∧ vs.upper ≤ MAX_VAL := by
  obtain ⟨h1, h2, h3, h4, h5⟩ := (AllBox.run h hb init_boxed).get hv
  rw [min_val', max_val']
  omega

/-- The right-hand sides of the linear constraints posted for `sum ◦ r` for a relation `◦`, and whether
coefficients are negated (parsing.cc:461-560, see C09). -/
inductive Posted (out : List (Int × Nat)) (r : Int) : List (Int × Nat) → Int → Prop
  | le : Posted out r out r
  | lt : Posted out r out (r - 1)
  | ge : Posted out r (out.map (fun t => (-t.1, t.2))) (-r)
  | gt : Posted out r (out.map (fun t => (-t.1, t.2))) (-r - 1)

theorem largest_neg {out : List (Int × Nat)} : largest (out.map (fun t => (-t.1, t.2))) = largest out := by
  unfold largest
  rw [List.map_map]
  congr 1
  refine List.map_congr_left (fun t _ => ?_)
  simp

/-- **C48** Let a linear constraint be accepted by simplification such that the largest absolute value its
sum can have is three below the limit of 64 bit integers. Then, whenever the constraint is propagated in a
state without pending changes of bounds, no operation on sums, slacks, products and new bounds overflows:
propagation using machine arithmetic, where an overflow is undefined behaviour, and propagation using
integers of unbounded size do the same.

This is partial because simplification also accepts sums that are closer to the limit, see `C48_negation`. -/
theorem C48_propagate_partial {m : Int} {ops : List Op} {n : Nat} {c : CState} {vec out es : List (Int × Nat)} {lit r rhs : Int} {ck t : Bool}
    (hm : 1 < m) (h : Run ops (World.init m) W) (hb : ∀ lo up, Op.addVar lo up ∈ ops → MIN_VAL ≤ lo ∧ up ≤ MAX_VAL)
    (hs : simplify vec true = .ok (out, r)) (hl : largest out + |r| ≤ 2 ^ 63 - 3) (hp : Posted out r es rhs)
    (hq : W.noChanges) (hc : W.book.cs[n]? = some c) (ha : c.alive = true) (hi : c.removableAt W.level = false) (hk : c.con = .sum lit rhs es) :
    sumPropagate64 cc n ck t lit rhs es W = sumPropagate cc n ck t lit rhs es W := by
  have hr : Reach W := ⟨m, ops, hm, h⟩
  have hbox := AllBox.run h hb init_boxed
  obtain ⟨g1, g2, g3⟩ := C06_range vec true out r hs
  have hne : ∀ t ∈ out, t.1 ≠ 0 := (C06_shape vec true out r hs).2.2.2.1 rfl
  have hlow := (C21_sums_exact hr hq hc ha hi hk).1
  have e1 : lowerOf W = loF (frame W) := funext fun v => lowerOf_eq
  have e2 : upperOf W = upF (frame W) := funext fun v => upperOf_eq
  rw [e1, e2] at hlow
  obtain ⟨hL, hU⟩ := hbox.lim
  obtain ⟨l1, l2⟩ := leastSum_lim hL hU (es := es)
  rw [← hlow] at l1 l2
  have hls : reach64 es = largest out := by
    rw [largest_eq]
    cases hp
    · rfl
    · rfl
    · exact largest_neg
    · exact largest_neg
  have hab' := abs_le.mp (le_refl |r|)
  have hrr : |rhs| ≤ |r| + 1 := by
    cases hp
    · omega
    · exact abs_le.mpr (by omega)
    · rw [abs_neg]; omega
    · exact abs_le.mpr (by omega)
  have hab := abs_le.mp (le_refl |rhs|)
  rw [hls] at l1 l2
  have hco : ∀ e ∈ es, e.1 ≠ 0 ∧ -1073741823 ≤ e.1 ∧ e.1 ≤ 1073741823 := by
    have base : ∀ e ∈ out, e.1 ≠ 0 ∧ -1073741823 ≤ e.1 ∧ e.1 ≤ 1073741823 := by
      intro e he
      have := abs_le.mp (g2 e he)
      norm_num at this
      exact ⟨hne e he, this.1, this.2⟩
    have negs : ∀ e ∈ out.map (fun t => (-t.1, t.2)), e.1 ≠ 0 ∧ -1073741823 ≤ e.1 ∧ e.1 ≤ 1073741823 := by
      intro e he
      obtain ⟨x, hx, rfl⟩ := List.mem_map.mp he
      have := base x hx
      dsimp only
      omega
    cases hp
    · exact base
    · exact base
    · exact negs
    · exact negs
  norm_num at hl
  exact sumPropagate64_eq hr.ti hbox hc hlow hco (by omega) (by omega) (by omega)

theorem greatest_swap {lo up : Nat → Int} : ∀ {es : List (Int × Nat)}, greatestSum lo up es = leastSum up lo es
  | [] => rfl
  | e :: es => by
    rw [leastSum_cons, ← greatest_swap]
    rfl

/-- **C48** When a bound of a variable changes from one valid value to another one, then the least and
greatest values of the sum are updated without overflow: the product and the new sums fit. -/
theorem C48_update {es : List (Int × Nat)} {lo up : Nat → Int} {i diff : Int} {v : Nat} {c : CState}
    (hL : ∀ v, MIN_VAL ≤ lo v ∧ lo v ≤ MAX_VAL) (hU : ∀ v, MIN_VAL ≤ up v ∧ up v ≤ MAX_VAL) (hl : largest es ≤ 2 ^ 63 - 1)
    (he : (i, v) ∈ es) (hi : |i| ≤ 2 ^ 30 - 1) (hlow : c.lower = leastSum lo up es) (hupp : c.upper = greatestSum lo up es) (hn : i ≠ 0)
    (hd : (0 < diff ∧ lo v + diff ≤ MAX_VAL) ∨ (diff < 0 ∧ MIN_VAL ≤ up v + diff)) :
    ∃ r, c.updateSum i diff = .ok r ∧ sumUpdate64 i diff c.lower c.upper W = .ok ((r.2.lower, r.2.upper), W) := by
  rw [min_val'] at *
  rw [max_val'] at *
  rw [greatest_swap] at hupp
  obtain ⟨l, l1, l2, l3⟩ := leastSum_rest hL hU he
  obtain ⟨u, u1, u2, u3⟩ := leastSum_rest hU hL he
  rw [largest_eq] at l2 l3 u2 u3
  rw [← hlow] at l1
  rw [← hupp] at u1
  dsimp only at l1 l2 l3 u1 u2 u3
  have hv := hL v
  have hw := hU v
  norm_num at hl hi
  have hi' := abs_le.mp hi
  have hprod : -9223372036854775808 ≤ i * diff ∧ i * diff ≤ 9223372036854775807 := by
    have : -2147483646 ≤ diff ∧ diff ≤ 2147483646 := by omega
    constructor <;> nlinarith
  have hdn : diff ≠ 0 := by omega
  have hxn : i * diff ≠ 0 := mul_ne_zero hn hdn
  unfold CState.updateSum
  rw [if_neg hxn]
  have step : ∀ {x : Int} {f : Unit → SM (Int × Int)}, x ≠ 0 → (assertS (decide (x ≠ 0)) >>= f) W = f () W := by
    intro x f h
    unfold assertS
    rw [decide_eq_true h]
    rfl
  split_ifs with hx
  · refine ⟨_, rfl, ?_⟩
    unfold sumUpdate64
    refine (fit64_bind (x := i * diff) hprod.1 hprod.2).trans ?_
    refine (step hxn).trans ?_
    rw [if_pos hx]
    have hb : -9223372036854775808 ≤ c.upper + i * diff ∧ c.upper + i * diff ≤ 9223372036854775807 := by
      split_ifs at u1 with hp
      · have hd' : diff < 0 := by nlinarith
        have := prod_lim (co := i) (x := up v + diff) (by omega) (by omega)
        rw [mul_add] at this
        omega
      · have hd' : 0 < diff := by nlinarith
        have := prod_lim (co := i) (x := lo v + diff) (by omega) (by omega)
        rw [mul_add] at this
        omega
    exact (fit64_bind (x := c.upper + i * diff) hb.1 hb.2).trans rfl
  · refine ⟨_, rfl, ?_⟩
    unfold sumUpdate64
    refine (fit64_bind (x := i * diff) hprod.1 hprod.2).trans ?_
    refine (step hxn).trans ?_
    rw [if_neg hx]
    have hb : -9223372036854775808 ≤ c.lower + i * diff ∧ c.lower + i * diff ≤ 9223372036854775807 := by
      split_ifs at l1 with hp
      · have hd' : 0 < diff := by
          rcases lt_trichotomy diff 0 with h | h | h
          · nlinarith
          · omega
          · exact h
        have := prod_lim (co := i) (x := lo v + diff) (by omega) (by omega)
        rw [mul_add] at this
        omega
      · have hd' : diff < 0 := by
          rcases lt_trichotomy diff 0 with h | h | h
          · exact h
          · omega
          · have : i < 0 := by omega
            nlinarith
        have := prod_lim (co := i) (x := up v + diff) (by omega) (by omega)
        rw [mul_add] at this
        omega
    exact (fit64_bind (x := c.lower + i * diff) hb.1 hb.2).trans rfl

/-- **C48** The same when a change is taken back. -/
theorem C48_undo {es : List (Int × Nat)} {lo up : Nat → Int} {i diff : Int} {v : Nat} {c : CState}
    (hL : ∀ v, MIN_VAL ≤ lo v ∧ lo v ≤ MAX_VAL) (hU : ∀ v, MIN_VAL ≤ up v ∧ up v ≤ MAX_VAL) (hl : largest es ≤ 2 ^ 63 - 1)
    (he : (i, v) ∈ es) (hi : |i| ≤ 2 ^ 30 - 1) (hlow : c.lower = leastSum lo up es) (hupp : c.upper = greatestSum lo up es) (hn : i ≠ 0)
    (hd : (0 < diff ∧ MIN_VAL ≤ lo v - diff) ∨ (diff < 0 ∧ up v - diff ≤ MAX_VAL)) :
    sumUndo64 i diff c.lower c.upper W = .ok (((c.undoSum i diff).lower, (c.undoSum i diff).upper), W) := by
  rw [min_val'] at *
  rw [max_val'] at *
  rw [greatest_swap] at hupp
  obtain ⟨l, l1, l2, l3⟩ := leastSum_rest hL hU he
  obtain ⟨u, u1, u2, u3⟩ := leastSum_rest hU hL he
  rw [largest_eq] at l2 l3 u2 u3
  rw [← hlow] at l1
  rw [← hupp] at u1
  dsimp only at l1 l2 l3 u1 u2 u3
  have hv := hL v
  have hw := hU v
  norm_num at hl hi
  have hi' := abs_le.mp hi
  have hprod : -9223372036854775808 ≤ i * diff ∧ i * diff ≤ 9223372036854775807 := by
    have : -2147483646 ≤ diff ∧ diff ≤ 2147483646 := by omega
    constructor <;> nlinarith
  have hdn : diff ≠ 0 := by omega
  have hxn : i * diff ≠ 0 := mul_ne_zero hn hdn
  unfold CState.undoSum sumUndo64
  refine (fit64_bind (x := i * diff) hprod.1 hprod.2).trans ?_
  split_ifs with hx
  · have hb : -9223372036854775808 ≤ c.lower - i * diff ∧ c.lower - i * diff ≤ 9223372036854775807 := by
      split_ifs at l1 with hp
      · have hd' : 0 < diff := by nlinarith
        have := prod_lim (co := i) (x := lo v - diff) (by omega) (by omega)
        rw [mul_sub] at this
        omega
      · have hd' : diff < 0 := by nlinarith
        have := prod_lim (co := i) (x := up v - diff) (by omega) (by omega)
        rw [mul_sub] at this
        omega
    exact (fit64_bind (x := c.lower - i * diff) hb.1 hb.2).trans rfl
  · have hb : -9223372036854775808 ≤ c.upper - i * diff ∧ c.upper - i * diff ≤ 9223372036854775807 := by
      split_ifs at u1 with hp
      · have hd' : diff < 0 := by
          rcases lt_trichotomy diff 0 with h | h | h
          · exact h
          · omega
          · nlinarith
        have := prod_lim (co := i) (x := up v - diff) (by omega) (by omega)
        rw [mul_sub] at this
        omega
      · have hd' : 0 < diff := by
          rcases lt_trichotomy diff 0 with h | h | h
          · have : i < 0 := by omega
            nlinarith
          · omega
          · exact h
        have := prod_lim (co := i) (x := lo v - diff) (by omega) (by omega)
        rw [mul_sub] at this
        omega
    exact (fit64_bind (x := c.upper - i * diff) hb.1 hb.2).trans rfl

/-! ### A sum close to the limit -/

/-- Nine variables with the largest valid bounds and the sum of all of them with large coefficients. -/
def bigSum : List (Int × Nat) := (List.range 8).map (fun v => (1073741823, v)) ++ [(16, 8)]
def bigRun (rhs : Int) : List Op := List.replicate 9 (Op.addVar MIN_VAL MAX_VAL) ++ [.addConstraint (.sum 1 rhs bigSum)]
def bigWorld (rhs : Int) : World := (tryRun (bigRun rhs) (World.init 2)).getD (World.init 2)

/-- The outcome of a computation. -/
def isUb {α : Type} : Except Err α → Bool
  | .error .ub => true
  | _ => false
def isFine {α : Type} : Except Err α → Bool
  | .ok _ => true
  | _ => false
theorem isUb_eq {α : Type} {x : Except Err α} (h : isUb x = true) : x = .error .ub := by
  unfold isUb at h
  split at h
  · rfl
  · cases h
theorem isFine_eq {α : Type} {x : Except Err α} (h : isFine x = true) : ∃ p, x = .ok p := by
  unfold isFine at h
  split at h
  · exact ⟨_, rfl⟩
  · cases h

theorem bigRun_valid {rhs : Int} : ∀ lo up, Op.addVar lo up ∈ bigRun rhs → MIN_VAL ≤ lo ∧ up ≤ MAX_VAL := by
  intro lo up h
  unfold bigRun at h
  rcases List.mem_append.mp h with h | h
  · have := List.eq_of_mem_replicate h
    injection this with h1 h2
    subst h1 h2
    exact ⟨le_refl _, le_refl _⟩
  · cases List.mem_singleton.mp h

/-- **C48** The claim does not hold: this sum is accepted by simplification, and the computation of the
slack plus one overflows when the constraint is propagated directly after adding it. -/
theorem C48_negation : ∃ (ops : List Op) (W : World) (vec es : List (Int × Nat)) (r : Int) (n : Nat) (c : CState),
    Run ops (World.init 2) W ∧ (∀ lo up, Op.addVar lo up ∈ ops → MIN_VAL ≤ lo ∧ up ≤ MAX_VAL) ∧ simplify vec true = .ok (es, r) ∧ W.noChanges ∧
    W.book.cs[n]? = some c ∧ c.alive = true ∧ c.removableAt W.level = false ∧ c.con = .sum 1 r es ∧
    sumPropagate64 idle n false false 1 r es W = .error .ub ∧ ∃ p, sumPropagate idle n false false 1 r es W = .ok p :=
  ⟨bigRun 7, bigWorld 7, bigSum ++ [(-7, INVALID_VAR)], bigSum, 7, 0, ((bigWorld 7).book.cs[0]?).getD { con := .sum 1 7 bigSum },
    tryRun_getD (by decide +kernel), bigRun_valid, by decide +kernel, by constructor <;> decide +kernel,
    by decide +kernel, by decide +kernel, by decide +kernel, by decide +kernel, isUb_eq (by decide +kernel), isFine_eq (by decide +kernel)⟩

/-- The hypotheses of `C48_propagate_partial` are met by the same sum with another right-hand side, three
below the limit. -/
example : sumPropagate64 idle 0 true false 1 3 bigSum (bigWorld 3) = sumPropagate idle 0 true false 1 3 bigSum (bigWorld 3) :=
  C48_propagate_partial (m := 2) (ops := bigRun 3) (n := 0) (c := ((bigWorld 3).book.cs[0]?).getD { con := .sum 1 3 bigSum })
    (vec := bigSum ++ [(-3, INVALID_VAR)]) (out := bigSum) (r := 3) (by decide) (tryRun_getD (by decide +kernel)) bigRun_valid (by decide +kernel)
    (by decide +kernel) .le (by constructor <;> decide +kernel) (by decide +kernel) (by decide +kernel) (by decide +kernel) (by decide +kernel)

example : ∃ p, sumPropagate idle 0 true false 1 3 bigSum (bigWorld 3) = .ok p := isFine_eq (by decide +kernel)

/-- `C48_bounds` for the variables of this state. -/
example : ∃ vs, (bigWorld 3).vars[8]? = some vs ∧ MIN_VAL ≤ vs.lower ∧ vs.lower ≤ vs.upper ∧ vs.upper ≤ MAX_VAL := by
  cases h : (bigWorld 3).vars[8]? with
  | none => exact absurd h (by decide +kernel)
  | some vs => exact ⟨vs, rfl, C48_bounds (ops := bigRun 3) (n := 2) (tryRun_getD (by decide +kernel)) bigRun_valid h⟩

/-- The constraint if all variables have the given bounds. -/
def bigState (lo up : Int) : CState :=
  { con := .sum 1 3 bigSum, lower := leastSum (fun _ => lo) (fun _ => up) bigSum, upper := greatestSum (fun _ => lo) (fun _ => up) bigSum }

/-- `C48_update` and `C48_undo` for a variable whose lower bound becomes the largest valid one. -/
example : ∃ r, (bigState MIN_VAL MAX_VAL).updateSum 1073741823 2147483646 = .ok r ∧
    sumUpdate64 1073741823 2147483646 (bigState MIN_VAL MAX_VAL).lower (bigState MIN_VAL MAX_VAL).upper (World.init 2) = .ok ((r.2.lower, r.2.upper), World.init 2) :=
  C48_update (es := bigSum) (lo := fun _ => MIN_VAL) (up := fun _ => MAX_VAL) (v := 3)
    (fun _ => by decide) (fun _ => by decide) (by decide +kernel) (by decide +kernel) (by decide +kernel) rfl rfl (by decide) (.inl (by decide))
example : sumUndo64 1073741823 2147483646 (bigState MAX_VAL MAX_VAL).lower (bigState MAX_VAL MAX_VAL).upper (World.init 2) =
    .ok ((((bigState MAX_VAL MAX_VAL).undoSum 1073741823 2147483646).lower, ((bigState MAX_VAL MAX_VAL).undoSum 1073741823 2147483646).upper), World.init 2) :=
  C48_undo (es := bigSum) (lo := fun _ => MAX_VAL) (up := fun _ => MAX_VAL) (v := 3)
    (fun _ => by decide) (fun _ => by decide) (by decide +kernel) (by decide +kernel) (by decide +kernel) rfl rfl (by decide) (.inl (by decide))

end Clingcon.Props
