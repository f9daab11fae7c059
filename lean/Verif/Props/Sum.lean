import Verif.Props.Levels
import Verif.Props.Attach
import Verif.Proof.SumDetect

/-! Propagation of linear constraints: properties C22, C23, and C56. -/
namespace Clingcon.Props
open Clingcon Clingcon.Spec

variable {cc : CC} {β : Nat → Bool} {σ : Nat → Int} {W W' : World} {n : Nat} {ck tagged r : Bool} {clit rhs : Int} {es : List (Int × Nat)} {c : CState}

theorem bndSum_eq : bndSum (frame W) es = leastSum (lowerOf W) (upperOf W) es := by
  unfold bndSum
  induction es with
  | nil => rfl
  | cons e es ih =>
    unfold sumExcept leastSum
    rw [ih, if_neg (by simp)]
    unfold bndF
    rw [lowerOf_eq, upperOf_eq]

theorem valSum_eq : valSum σ es = wsum σ es := by
  unfold valSum
  induction es with
  | nil => rfl
  | cons e es ih =>
    unfold sumExcept
    rw [ih, if_neg (by simp)]
    rfl

/-- **C22** Every clause posted while propagating a linear constraint, and every literal that is made a fact, is
satisfied by every assignment that satisfies the constraint whenever its literal is true; the state stays faithful.
The hypothesis on the recorded sum is `C21_sums_exact`. -/
theorem C22_propagate_sound (he : EnvSound cc β) (hv : EnvMono cc) (hi : Inv β σ W) (hc : clit ≠ 0) (hd : (es.map (·.2)).Nodup)
    (hlow : ∀ c, W.book.cs[n]? = some c → c.lower ≤ leastSum (lowerOf W) (upperOf W) es)
    (h : sumPropagate cc n ck tagged clit rhs es W = .ok (r, W')) (hs : litTrue β clit → wsum σ es ≤ rhs)
    (hr : Respects β σ W'.log) : AllHold β W'.log ∧ FactsHold σ W' ∧ Inv β σ W' := by
  have := ((tr_sumPropagate (F := frame W) he hv hc (fun ht => by rw [valSum_eq]; exact hs ht) hd
    (fun c hc => by rw [bndSum_eq]; exact hlow c hc) W r W' h).2 ⟨hi, rfl⟩ ⟨hr, fun h => by cases h⟩).1
  exact ⟨this.good.posted, this.good.facts, this⟩

/-- **C22** The same for a constraint in a reachable state without pending changes of bounds. -/
theorem C22_reachable (he : EnvSound cc β) (hv : EnvMono cc) (hi : Inv β σ W) (hc : clit ≠ 0) (hd : (es.map (·.2)).Nodup)
    (hw : Reach W) (hq : W.noChanges) (hcs : W.book.cs[n]? = some c) (ha : c.alive = true) (hin : c.removableAt W.level = false)
    (hk : c.con = .sum clit rhs es) (h : propagateCS cc ck n W = .ok (r, W')) (hs : litTrue β clit → wsum σ es ≤ rhs)
    (hr : Respects β σ W'.log) : AllHold β W'.log ∧ FactsHold σ W' ∧ Inv β σ W' := by
  unfold propagateCS at h
  obtain ⟨c', W1, h1, h2⟩ := SM.bind_ok h
  obtain ⟨⟨hc', -⟩, rfl⟩ := getCS_iff.mp h1
  rw [hcs] at hc'
  injection hc' with hc'
  subst hc'
  rw [hk] at h2
  refine C22_propagate_sound he hv hi hc hd (fun c'' h3 => ?_) h2 hs hr
  rw [hcs] at h3
  injection h3 with h3
  subst h3
  exact (C21_sums_exact hw hq hcs ha hin hk).1.le

/-- **C23** If the least value of a linear constraint whose literal is not false exceeds the right-hand side, then
propagation ends with a clause: either it was refused by the Boolean solver, or all of its literals are false except
for the negated literal of the constraint. -/
theorem C23_conflict (hv : EnvMono cc) (hcs : W.book.cs[n]? = some c) (hle : c.lower ≤ c.upper) (hconf : rhs < c.lower)
    (h : sumPropagate cc n ck tagged clit rhs es W = .ok (r, W')) :
    (r = false ∧ ∃ cl log, W'.log = .clause cl :: log ∧ cc.accept W'.log = false) ∨
    ∃ reason log, (W'.log = .clause (reason ++ [-clit]) :: log ∨ W'.log = .volatile (reason ++ [-clit]) :: log) ∧
      r = cc.accept W'.log ∧ ∀ l ∈ reason, cc.isFalse log l = true := by
  obtain ⟨c', hc', -, -, hx⟩ := sumPropagate_cases h
  rw [hcs] at hc'
  injection hc' with hc'
  subst hc'
  rcases hx with ⟨hx, -⟩ | ⟨-, -, hx⟩ | ⟨-, hx, -⟩
  · omega
  · rcases hx with ⟨rfl, hx⟩ | ⟨reason, W1, u, W2, h1, h2, h3⟩
    · rcases sumReason_ref hv hx (by simp) with ⟨_, h1, -⟩ | ⟨-, h1⟩
      · cases h1
      · exact .inl ⟨rfl, h1⟩
    · right
      rcases sumReason_ref hv h1 (by simp) with ⟨r1, e, h4⟩ | ⟨e, -⟩
      · injection e with e
        subst e
        obtain ⟨e, h5, h6, h7, -⟩ := addClauseT_log h3
        have e2 : W2.log = W1.log := by
          unfold markInactiveS at h2
          simp only [smok] at h2
          obtain ⟨l, W3, ⟨-, rfl⟩, rfl⟩ := h2
          rfl
        rw [e2] at h5
        refine ⟨reason, W1.log, ?_, h7, h4⟩
        rcases h6 with rfl | rfl
        · exact .inl h5
        · exact .inr h5
      · cases e
  · omega

theorem leastSum_le (hb : ∀ e ∈ es, lowerOf W e.2 ≤ σ e.2 ∧ σ e.2 ≤ upperOf W e.2) : leastSum (lowerOf W) (upperOf W) es ≤ wsum σ es := by
  induction es with
  | nil => exact Int.le_refl _
  | cons e es ih =>
    have h1 := ih (fun e' he' => hb e' (List.mem_cons_of_mem _ he'))
    obtain ⟨h2, h3⟩ := hb e (List.mem_cons_self ..)
    obtain ⟨co, v⟩ := e
    unfold leastSum
    have e1 : wsum σ ((co, v) :: es) = co * σ v + wsum σ es := by simp [wsum]
    rw [e1]
    split_ifs with hc
    · nlinarith
    · nlinarith

theorem le_greatestSum (hb : ∀ e ∈ es, lowerOf W e.2 ≤ σ e.2 ∧ σ e.2 ≤ upperOf W e.2) : wsum σ es ≤ greatestSum (lowerOf W) (upperOf W) es := by
  induction es with
  | nil => exact Int.le_refl _
  | cons e es ih =>
    have h1 := ih (fun e' he' => hb e' (List.mem_cons_of_mem _ he'))
    obtain ⟨h2, h3⟩ := hb e (List.mem_cons_self ..)
    obtain ⟨co, v⟩ := e
    unfold greatestSum
    have e1 : wsum σ ((co, v) :: es) = co * σ v + wsum σ es := by simp [wsum]
    rw [e1]
    split_ifs with hc
    · nlinarith
    · nlinarith

/-- **C23** Propagating a linear constraint changes the state of a constraint (that is, marks the constraint as
inactive) only if the constraint is satisfied by all assignments within the current bounds or violated by all of them. -/
theorem C23_inactive (hcs : W.book.cs[n]? = some c) (hex : c.lower = leastSum (lowerOf W) (upperOf W) es ∧ c.upper = greatestSum (lowerOf W) (upperOf W) es)
    (h : sumPropagate cc n ck tagged clit rhs es W = .ok (r, W')) :
    W'.book = W.book ∨
    (∀ σ : Nat → Int, (∀ e ∈ es, lowerOf W e.2 ≤ σ e.2 ∧ σ e.2 ≤ upperOf W e.2) → wsum σ es ≤ rhs) ∨
    (∀ σ : Nat → Int, (∀ e ∈ es, lowerOf W e.2 ≤ σ e.2 ∧ σ e.2 ≤ upperOf W e.2) → rhs < wsum σ es) := by
  obtain ⟨c', hc', -, -, hx⟩ := sumPropagate_cases h
  rw [hcs] at hc'
  injection hc' with hc'
  subst hc'
  rcases hx with ⟨hx, -⟩ | ⟨-, hx, -⟩ | ⟨-, -, hx⟩
  · exact .inr (.inl fun σ hσ => (le_greatestSum hσ).trans (hex.2 ▸ hx))
  · exact .inr (.inr fun σ hσ => lt_of_lt_of_le (hex.1 ▸ hx) (leastSum_le hσ))
  · rcases hx with ⟨-, -, rfl⟩ | ⟨-, hx⟩
    · exact .inl rfl
    · exact .inl (congrArg Prod.snd (fr_sumLoop.fr _ _ _ hx))

/-- `v` can have value `x` if the other variables of the linear constraint have the bounds making the sum least. -/
def supported (W : World) (es : List (Int × Nat)) (rhs co : Int) (v : Nat) (x : Int) : Prop :=
  co * x + (leastSum (lowerOf W) (upperOf W) es - (if co > 0 then co * lowerOf W v else co * upperOf W v)) ≤ rhs

/-- **C56** (partial) After propagating a linear constraint with a true literal without conflict, all assignments within
the bounds that satisfy what was posted and agree with the Boolean assignment have supported values. The full property has
no exception; here the value is not supported if it is the greatest value of a variable with positive coefficient and
the next smaller one is supported (`C56_bound_missed`). -/
theorem C56_bounds_partial {co : Int} {v : Nat} (he : EnvSound cc β) (hv : EnvMono cc) (hi : Inv β σ W) (hc : clit ≠ 0)
    (hcs : W.book.cs[n]? = some c) (hlow : c.lower = leastSum (lowerOf W) (upperOf W) es) (hup : c.upper = greatestSum (lowerOf W) (upperOf W) es)
    (hb : ∀ e ∈ es, lowerOf W e.2 ≤ σ e.2 ∧ σ e.2 ≤ upperOf W e.2)
    (h : sumPropagate cc n ck tagged clit rhs es W = .ok (true, W')) (ht : cc.isTrue W.log clit = true)
    (hr : Respects β σ W'.log) (hp : AllHold β W'.log) (hf : FactsHold σ W') (hg : Agrees cc β W'.log)
    (hm : (co, v) ∈ es) (h0 : co ≠ 0) :
    supported W es rhs co v (σ v) ∨ (co > 0 ∧ σ v = upperOf W v ∧ supported W es rhs co v (upperOf W v - 1)) := by
  obtain ⟨c', hc', -, -, hx⟩ := sumPropagate_cases h
  rw [hcs] at hc'
  injection hc' with hc'
  subst hc'
  rcases hx with ⟨hx, -⟩ | ⟨h1, h2, hx⟩ | ⟨-, h2, hx⟩
  · left
    unfold supported
    have hle : ∀ {es' : List (Int × Nat)}, (∀ e ∈ es', lowerOf W e.2 ≤ σ e.2 ∧ σ e.2 ≤ upperOf W e.2) →
        (co, v) ∈ es' → co * σ v + (leastSum (lowerOf W) (upperOf W) es' - (if co > 0 then co * lowerOf W v else co * upperOf W v)) ≤ wsum σ es' := by
      intro es'
      induction es' with
      | nil => intro _ h; cases h
      | cons e es' ih =>
        intro hb' hm'
        obtain ⟨co', v'⟩ := e
        have e1 : wsum σ ((co', v') :: es') = co' * σ v' + wsum σ es' := by simp [wsum]
        have hb1 := fun e he => hb' e (List.mem_cons_of_mem _ he)
        rw [e1]
        unfold leastSum
        rcases List.mem_cons.mp hm' with e2 | hm'
        · injection e2 with e2 e3
          subst e2 e3
          have := leastSum_le hb1
          linarith
        · have := ih hb1 hm'
          obtain ⟨k1, k2⟩ := hb' (co', v') (List.mem_cons_self ..)
          have : (if co' > 0 then co' * lowerOf W v' else co' * upperOf W v') ≤ co' * σ v' := by
            split_ifs
            · nlinarith
            · nlinarith
          linarith
    exact (hle hb hm).trans ((le_greatestSum hb).trans (hup ▸ hx))
  · exfalso
    rcases hx with ⟨hx, -⟩ | ⟨reason, W1, u, W2, h3, h4, h5⟩
    · cases hx
    · rcases sumReason_ref hv h3 (by simp) with ⟨r1, e, h6⟩ | ⟨e, -⟩
      · injection e with e
        subst e
        obtain ⟨e, h7, h8, -, -⟩ := addClauseT_log h5
        have hh : ∃ l ∈ reason ++ [-clit], litTrue β l := by
          have := hp e (by rw [h7]; simp)
          rcases h8 with rfl | rfl <;> exact this
        have e2 : W2.log = W1.log := by
          unfold markInactiveS at h4
          simp only [smok] at h4
          obtain ⟨l, W3, ⟨-, rfl⟩, rfl⟩ := h4
          rfl
        have g1 : Grow true W W1 := ext_sumReason.ext _ _ _ h3
        obtain ⟨l, hl, hlt⟩ := hh
        rcases List.mem_append.mp hl with hl | hl
        · refine hg.isFalse l ?_ hlt
          rw [h7, e2]; exact hv.isFalse (h6 l hl)
        · rw [List.mem_singleton] at hl
          subst hl
          refine (litTrue_neg hc).mp hlt (hg.isTrue clit ?_)
          rw [h7, e2]; exact hv.isTrue (g1.isTrue hv ht)
      · cases e
  · rcases hx with ⟨hx, -⟩ | ⟨-, hx⟩
    · rw [ht] at hx; cases hx
    · obtain ⟨-, hk⟩ := sumLoop_enf (F := frame W) he hv hc hx ⟨hi, rfl⟩ ht ⟨hr, fun _ => ⟨hp, hf⟩⟩ hg
      have := hk rfl (co, v) hm
      unfold Enforced at this
      rw [← lowerOf_eq, ← upperOf_eq] at this
      obtain ⟨k1, k2⟩ := this
      obtain ⟨b1, b2⟩ := hb _ hm
      rw [hlow] at k1 k2 h2
      dsimp only at k1 k2 b1 b2
      unfold supported
      rcases lt_or_gt_of_ne h0 with hneg | hpos
      · left
        rw [if_neg (by omega)]
        have hq : upperOf W v - (rhs - leastSum (lowerOf W) (upperOf W) es) / -co ≤ σ v := by
          by_cases hh : lowerOf W v < upperOf W v - (rhs - leastSum (lowerOf W) (upperOf W) es) / -co
          · exact k2 hneg hh
          · omega
        have := Int.ediv_mul_le (rhs - leastSum (lowerOf W) (upperOf W) es) (b := -co) (by omega)
        nlinarith
      · rw [if_pos hpos]
        have hd := Int.ediv_mul_le (rhs - leastSum (lowerOf W) (upperOf W) es) (b := co) (by omega)
        generalize (rhs - leastSum (lowerOf W) (upperOf W) es) / co = q at *
        by_cases hh : lowerOf W v + q + 1 < upperOf W v
        · left
          have := k1 hpos hh
          nlinarith
        · by_cases h3 : σ v = upperOf W v
          · by_cases h4 : upperOf W v ≤ lowerOf W v + q
            · left; rw [h3]; nlinarith
            · right
              exact ⟨hpos, h3, by nlinarith⟩
          · left
            have : σ v ≤ lowerOf W v + q := by omega
            nlinarith

theorem idle_mono : EnvMono idle := fun _ _ _ _ h => h

/-- States without order literals are faithful to all assignments within the bounds. -/
theorem fresh_inv (h0 : 0 < W.nextLit) (hl : W.litmap = []) (hf : W.factmap = []) (hlog : W.log = [])
    (ht : ∀ vs ∈ W.vars, vs.table = .map []) (hb : ∀ v vs, W.vars[v]? = some vs → vs.minBound ≤ σ v ∧ σ v ≤ vs.maxBound) : Inv β σ W := by
  refine ⟨⟨h0, fun v vs hvs k l hm => ?_, hb, fun i e hie hp => ?_, fun _ _ _ _ hm => ?_, fun _ hm => ?_⟩, fun v vs hvs => ?_⟩
  · unfold VarState.with at hm; rw [ht _ (List.mem_of_getElem? hvs)] at hm; cases hm
  · rw [hl] at hie; cases hie
  · rw [hf] at hm; cases hm
  · rw [hlog] at hm; cases hm
  · unfold VarState.WF; rw [ht _ (List.mem_of_getElem? hvs)]; exact ⟨List.Pairwise.nil, by simp⟩

/-- `x + y ≤ 19` for `x` in `[0, 10]` and `y = 10`. -/
def missed : World := (tryRun [.addVar 0 10, .addVar 10 10, .addConstraint (.sum 1 19 [(1, 0), (1, 1)])] (World.init 2)).getD (World.init 2)

theorem missed_inv : Inv (fun _ => true) (fun _ => 10) missed := by
  refine fresh_inv (by decide +kernel) (by decide +kernel) (by decide +kernel) (by decide +kernel) (by decide +kernel) (fun v vs hv => ?_)
  have e : missed.vars = [{ lower := 0, upper := 10 }, { lower := 10, upper := 10 }] := by decide +kernel
  rw [e] at hv
  match v, hv with
  | 0, hv => injection hv with hv; subst hv; exact ⟨by decide, by decide⟩
  | 1, hv => injection hv with hv; subst hv; exact ⟨by decide, by decide⟩
  | (v + 2), hv => cases hv

/-- **C56** The full property is violated by the code: from `x + y ≤ 19` and `y = 10` it does not derive `x ≤ 9` because the
upper bound of `x` is `10` (constraints.cc:215 compares the value after the new bound with the current bound). -/
theorem C56_bound_missed : ¬ ∀ (cc : CC) (β : Nat → Bool) (σ : Nat → Int) (W W' : World) (n : Nat) (c : CState) (clit rhs : Int) (es : List (Int × Nat)) (co : Int) (v : Nat),
    EnvSound cc β → EnvMono cc → Inv β σ W → clit ≠ 0 → Reach W → W.noChanges → W.book.cs[n]? = some c → c.con = .sum clit rhs es →
    c.lower = leastSum (lowerOf W) (upperOf W) es → c.upper = greatestSum (lowerOf W) (upperOf W) es →
    (∀ e ∈ es, lowerOf W e.2 ≤ σ e.2 ∧ σ e.2 ≤ upperOf W e.2) → sumPropagate cc n false false clit rhs es W = .ok (true, W') →
    cc.isTrue W.log clit = true → Respects β σ W'.log → AllHold β W'.log → FactsHold σ W' → Agrees cc β W'.log → (co, v) ∈ es → co ≠ 0 →
    supported W es rhs co v (σ v) := by
  intro h
  have hw : Reach missed := ⟨2, _, by decide, tryRun_getD (by decide +kernel)⟩
  have := h idle (fun _ => true) (fun _ => 10) missed missed 0 (missed.book.cs[0]?.getD { con := .disjoint 0 [] }) 1 19 [(1, 0), (1, 1)] 1 0
    (idle_sound rfl) idle_mono missed_inv (by decide) hw (by constructor <;> decide +kernel) (by decide +kernel) (by decide +kernel)
    (by decide +kernel) (by decide +kernel) (by decide +kernel) (by decide +kernel) (by decide +kernel)
    (fun _ _ _ hm => by have e : missed.log = [] := by decide +kernel
                        rw [e] at hm; cases hm)
    (fun _ hm => by have e : missed.log = [] := by decide +kernel
                    rw [e] at hm; cases hm)
    (fun _ _ _ _ hm => by have e : missed.factmap = [] := by decide +kernel
                          rw [e] at hm; cases hm)
    ⟨fun l hl => by
      simp only [CC.isTrue, beq_iff_eq] at hl
      obtain ⟨h1, h2⟩ := idle_value hl
      simp_all [litTrue], fun l hl => by
      simp only [CC.isFalse, beq_iff_eq] at hl
      obtain ⟨h1, h2⟩ := idle_value hl
      simp_all [litTrue]⟩ (by decide) (by decide)
  revert this
  unfold supported
  decide +kernel

/-! ### Concrete cases -/

/-- `2x - y ≤ 3` for `x` in `[0, 10]` and `y` in `[0, 7]`: `x ≤ 5` is derived. -/
def derives : World := (tryRun [.addVar 0 10, .addVar 0 7, .addConstraint (.sum 1 3 [(2, 0), (-1, 1)])] (World.init 2)).getD (World.init 2)

example : (sumPropagate idle 0 true false 1 3 [(2, 0), (-1, 1)] derives).toOption.map (fun p => (p.1, p.2.log)) = some (true, [.clause [1]]) ∧
    (sumPropagate idle 0 true false 1 3 [(2, 0), (-1, 1)] derives).toOption.map (fun p => p.2.factmap) = some [(1, 0, 5, 1)] := by decide +kernel

/-- The hypotheses of `C22_reachable` and `C56_bounds_partial` on the state are met. -/
example : Reach derives ∧ derives.noChanges ∧ Inv (fun _ => true) (fun v => if v = 0 then 5 else 7) derives ∧
    (∃ c, derives.book.cs[0]? = some c ∧ c.alive = true ∧ c.removableAt derives.level = false ∧ c.con = .sum 1 3 [(2, 0), (-1, 1)] ∧
      c.lower = leastSum (lowerOf derives) (upperOf derives) [(2, 0), (-1, 1)] ∧ c.upper = greatestSum (lowerOf derives) (upperOf derives) [(2, 0), (-1, 1)]) ∧
    wsum (fun v => if v = 0 then 5 else 7) [(2, 0), (-1, 1)] ≤ 3 := by
  refine ⟨⟨2, _, by decide, tryRun_getD (by decide +kernel)⟩, by constructor <;> decide +kernel, ?_,
    ⟨derives.book.cs[0]?.getD { con := .disjoint 0 [] }, by decide +kernel⟩, by decide +kernel⟩
  refine fresh_inv (by decide +kernel) (by decide +kernel) (by decide +kernel) (by decide +kernel) (by decide +kernel) (fun v vs hv => ?_)
  have e : derives.vars = [{ lower := 0, upper := 10 }, { lower := 0, upper := 7 }] := by decide +kernel
  rw [e] at hv
  match v, hv with
  | 0, hv => injection hv with hv; subst hv; exact ⟨by decide, by decide⟩
  | 1, hv => injection hv with hv; subst hv; exact ⟨by decide, by decide⟩
  | (v + 2), hv => cases hv

/-- The hypotheses of `C23_conflict`: `x + y ≤ 3` for a literal that is not assigned and variables that are at least `2`; the clause
consists of the negated literal because the bounds are fixed. -/
def conflicting : World := (tryRun [.addVar 2 10, .addVar 2 7, .addConstraint (.sum 5 3 [(1, 0), (1, 1)])] (World.init 8)).getD (World.init 2)

example : ∃ c, conflicting.book.cs[0]? = some c ∧ c.lower ≤ c.upper ∧ 3 < c.lower ∧
    (sumPropagate idle 0 true false 5 3 [(1, 0), (1, 1)] conflicting).toOption.map (fun p => (p.1, p.2.log)) = some (true, [.clause [-5]]) :=
  ⟨conflicting.book.cs[0]?.getD { con := .disjoint 0 [] }, by decide +kernel⟩

end Clingcon.Props
