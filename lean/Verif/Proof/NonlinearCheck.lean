import Verif.Proof.DistinctCheck
import Verif.Proof.Nonlinear
import Verif.Proof.Justify

/-! Violated nonlinear constraints: the functions `propagate` and `check`. -/
set_option linter.unusedSimpArgs false
set_option linter.unusedVariables false
namespace Clingcon
open Spec VarState

variable {α γ : Type} {W W' : World} {cc : CC} {n : Nat} {clit ca cb r : Int} {x y z : Nat}

/-! ### Propagation -/

/-- The literal is false if the variable has values between its current bounds. -/
def OffBound (W : World) (v : Nat) (l : Int) : Prop := LitOf W v (upF (frame W) v) (-l) ∨ LitOf W v (loF (frame W) v - 1) l

/-- No values between the bounds satisfy the constraint. -/
def NoValues (ca : Int) (x y : Nat) (cb : Int) (z : Nat) (r : Int) (F : List VarState × Book) : Prop :=
  ∀ a b d, loF F x ≤ a → a ≤ upF F x → loF F y ≤ b → b ≤ upF F y → loF F z ≤ d → d ≤ upF F z → ca * (a * b) + cb * d > r

/-- The second state has the properties of the first one that are kept during checks. -/
def Passed (cc : CC) (W W' : World) : Prop := ∀ P : World → Prop, Prim0 P → Kw P (integrateFacts cc) → P W → P W'

theorem Passed.trans {Wa : World} (h : Passed cc W Wa) (h' : Passed cc Wa W') : Passed cc W W' := fun P hP hi hp => h' P hP hi (h P hP hi hp)

/-- A clause is added and accepted that consists of literals for the current bounds of the given variables; these are not less tight
than at the start. -/
def Refuted (cc : CC) (vs : List Nat) (W W' : World) : Prop :=
  ∃ cl Wa, (.clause cl :: Wa.log) <:+ W'.log ∧ W.log <:+ Wa.log ∧ Tight (frame W) (frame Wa) ∧ (∀ l ∈ cl, ∃ v ∈ vs, OffBound Wa v l) ∧
    cc.accept (.clause cl :: Wa.log) = true ∧ Passed cc W Wa

theorem boundsOf_var {v : Nat} {vs : VarState} (h : W.vars[v]? = some vs) : loF (frame W) v = vs.lower ∧ upF (frame W) v = vs.upper := by
  have : (frame W).1[v]? = some vs.bounds := by simp [frame, List.getElem?_map, h]
  unfold loF upF
  rw [this]
  exact ⟨rfl, rfl⟩

theorem OffBound.later {v : Nat} {l : Int} (ht : TI W) (h : OffBound W v l) (hl : Later W W') : OffBound W' v l := by
  unfold OffBound at h ⊢
  rw [hl.frame]
  exact h.imp (hl.lits ht _ _ _) (hl.lits ht _ _ _)

theorem productReason_off {cl : List Int} (ht : TI W) (h : productReason cc x y W = .ok (cl, W')) : Later W W' ∧ ∀ l ∈ cl, OffBound W' x l ∨ OffBound W' y l := by
  unfold productReason at h
  obtain ⟨vx, W1, h1, k1⟩ := SM.bind_ok h
  obtain ⟨hx, rfl⟩ := getVar_iff.mp h1
  obtain ⟨vy, W2, h2, k2⟩ := SM.bind_ok k1
  obtain ⟨hy, rfl⟩ := getVar_iff.mp h2
  obtain ⟨a, W3, h3, k3⟩ := SM.bind_ok k2
  obtain ⟨b, W4, h4, k4⟩ := SM.bind_ok k3
  obtain ⟨c, W5, h5, k5⟩ := SM.bind_ok k4
  obtain ⟨d, W6, h6, k6⟩ := SM.bind_ok k5
  obtain ⟨rfl, rfl⟩ := pure_iff.mp k6
  obtain ⟨x1, x2⟩ := boundsOf_var hx
  obtain ⟨y1, y2⟩ := boundsOf_var hy
  obtain ⟨l3, q3⟩ := getLiteral_later ht h3
  have t3 := l3.ti ht
  obtain ⟨l4, q4⟩ := getLiteral_later t3 h4
  have t4 := l4.ti t3
  obtain ⟨l5, q5⟩ := getLiteral_later t4 h5
  have t5 := l5.ti t4
  obtain ⟨l6, q6⟩ := getLiteral_later t5 h6
  have f3 := l3.frame
  have f4 := l4.frame.trans f3
  have f5 := l5.frame.trans f4
  have f6 := l6.frame.trans f5
  refine ⟨l3.trans (l4.trans (l5.trans l6)), fun l hl => ?_⟩
  have o3 : OffBound W3 x (-a) := .inl (by rw [Int.neg_neg, f3, x2]; exact q3)
  have o4 : OffBound W4 x b := .inr (by rw [f4, x1]; exact q4)
  have o5 : OffBound W5 y (-c) := .inl (by rw [Int.neg_neg, f5, y2]; exact q5)
  have o6 : OffBound W' y d := .inr (by rw [f6, y1]; exact q6)
  simp only [List.mem_cons, List.not_mem_nil, or_false] at hl
  rcases hl with rfl | rfl | rfl | rfl
  · exact .inl (o3.later t3 (l4.trans (l5.trans l6)))
  · exact .inl (o4.later t4 (l5.trans l6))
  · exact .inr (o5.later t5 l6)
  · exact .inr o6

theorem linearReason_off {cl : List Int} (ht : TI W) (h : linearReason cc cb z W = .ok (cl, W')) : Later W W' ∧ ∀ l ∈ cl, OffBound W' z l := by
  unfold linearReason at h
  by_cases h0 : cb = 0
  · rw [if_pos h0] at h
    obtain ⟨rfl, rfl⟩ := pure_iff.mp h
    exact ⟨Later.refl, fun l hl => by cases hl⟩
  · rw [if_neg h0] at h
    obtain ⟨vz, W1, h1, k1⟩ := SM.bind_ok h
    obtain ⟨hz, rfl⟩ := getVar_iff.mp h1
    obtain ⟨z1, z2⟩ := boundsOf_var hz
    by_cases h2 : cb < 0
    · rw [if_pos h2] at k1
      obtain ⟨a, W3, h3, k2⟩ := SM.bind_ok k1
      obtain ⟨rfl, rfl⟩ := pure_iff.mp k2
      obtain ⟨l3, q3⟩ := getLiteral_later ht h3
      refine ⟨l3, fun l hl => ?_⟩
      obtain rfl := List.mem_singleton.mp hl
      exact .inl (by rw [Int.neg_neg, l3.frame, z2]; exact q3)
    · rw [if_neg h2] at k1
      obtain ⟨a, W3, h3, k2⟩ := SM.bind_ok k1
      obtain ⟨rfl, rfl⟩ := pure_iff.mp k2
      obtain ⟨l3, q3⟩ := getLiteral_later ht h3
      refine ⟨l3, fun l hl => ?_⟩
      obtain rfl := List.mem_singleton.mp hl
      exact .inr (by rw [l3.frame, z1]; exact q3)

theorem nonlinearPropagate_detect (ht : TI W) (hn : ∀ v, loF (frame W) v ≤ upF (frame W) v) (hv : NoValues ca x y cb z r (frame W)) (h : nonlinearPropagate cc n ca x y cb z r W = .ok (true, W')) :
    Refuted cc [x, y, z] W W' := by
  have lx := hn x
  have ly := hn y
  have lz := hn z
  unfold nonlinearPropagate at h
  obtain ⟨vx, W1, h1, k1⟩ := SM.bind_ok h
  obtain ⟨hx, rfl⟩ := getVar_iff.mp h1
  obtain ⟨vy, W2, h2, k2⟩ := SM.bind_ok k1
  obtain ⟨hy, rfl⟩ := getVar_iff.mp h2
  obtain ⟨u, W3, h3, k3⟩ := SM.bind_ok k2
  obtain ⟨x1, x2⟩ := boundsOf_var hx
  obtain ⟨y1, y2⟩ := boundsOf_var hy
  have hu : W3 = W2 ∧ (∃ d, loF (frame W2) z ≤ d ∧ d ≤ upF (frame W2) z ∧ u.1 = cb * d) ∧ u.1 ≤ u.2 := by
    unfold linearBound at h3
    by_cases h0 : cb = 0
    · rw [if_pos h0] at h3
      obtain ⟨rfl, rfl⟩ := pure_iff.mp h3
      exact ⟨rfl, ⟨_, Int.le_refl _, lz, by rw [h0]; simp⟩, Int.le_refl _⟩
    · rw [if_neg h0] at h3
      obtain ⟨vz, W4, h4, h5⟩ := SM.bind_ok h3
      obtain ⟨hz, rfl⟩ := getVar_iff.mp h4
      obtain ⟨z1, z2⟩ := boundsOf_var hz
      rw [z1, z2] at lz
      by_cases h6 : cb < 0
      · rw [if_pos h6] at h5
        obtain ⟨rfl, rfl⟩ := pure_iff.mp h5
        exact ⟨rfl, ⟨vz.upper, by rw [z1]; exact lz, by rw [z2], rfl⟩, Int.mul_le_mul_of_nonpos_left (Int.le_of_lt h6) lz⟩
      · rw [if_neg h6] at h5
        obtain ⟨rfl, rfl⟩ := pure_iff.mp h5
        exact ⟨rfl, ⟨vz.lower, by rw [z1], by rw [z2]; exact lz, rfl⟩, Int.mul_le_mul_of_nonneg_left lz (by omega)⟩
  obtain ⟨rfl, ⟨d, d1, d2, d3⟩, hu⟩ := hu
  have ht1 : ∃ a b, vx.lower ≤ a ∧ a ≤ vx.upper ∧ vy.lower ≤ b ∧ b ≤ vy.upper ∧ (getBound ca vx vy).1 = ca * (a * b) := by
    rw [x1, x2] at lx
    rw [y1, y2] at ly
    unfold getBound
    dsimp only
    rcases min_choice (min (ca * vx.lower * vy.lower) (ca * vx.lower * vy.upper)) (min (ca * vx.upper * vy.lower) (ca * vx.upper * vy.upper)) with e | e
    · rw [e]
      rcases min_choice (ca * vx.lower * vy.lower) (ca * vx.lower * vy.upper) with e | e
      · exact ⟨_, _, Int.le_refl _, lx, Int.le_refl _, ly, by rw [e, Int.mul_assoc]⟩
      · exact ⟨_, _, Int.le_refl _, lx, ly, Int.le_refl _, by rw [e, Int.mul_assoc]⟩
    · rw [e]
      rcases min_choice (ca * vx.upper * vy.lower) (ca * vx.upper * vy.upper) with e | e
      · exact ⟨_, _, lx, Int.le_refl _, Int.le_refl _, ly, by rw [e, Int.mul_assoc]⟩
      · exact ⟨_, _, lx, Int.le_refl _, ly, Int.le_refl _, by rw [e, Int.mul_assoc]⟩
  obtain ⟨a, b', a1, a2, b1, b2, e⟩ := ht1
  have hgt : (getBound ca vx vy).1 + u.1 > r := by
    rw [e, d3]
    exact hv a b' d (by rw [x1]; exact a1) (by rw [x2]; exact a2) (by rw [y1]; exact b1) (by rw [y2]; exact b2) d1 d2
  have hle := (getBound_spec (coA := ca) a1 a2 b1 b2).2
  rw [if_neg (by omega), if_pos hgt] at k3
  obtain ⟨p, W4, h4, k4⟩ := SM.bind_ok k3
  obtain ⟨q, W5, h5, k5⟩ := SM.bind_ok k4
  obtain ⟨l4, o4⟩ := productReason_off ht h4
  obtain ⟨l5, o5⟩ := linearReason_off (l4.ti ht) h5
  obtain ⟨hacc, hw⟩ := addClause_iff.mp k5
  have hlog : W'.log = .clause (p ++ q) :: W5.log := by rw [hw]
  refine ⟨p ++ q, W5, by rw [hlog], (l4.trans l5).log, by rw [(l4.trans l5).frame]; exact Tight.refl _, fun l hl => ?_, hacc.symm,
    fun P hP hi hp => (kw_linearReason hP).kw _ _ _ h5 ((kw_productReason hP).kw _ _ _ h4 hp)⟩
  rcases List.mem_append.mp hl with hl | hl
  · rcases o4 l hl with o | o
    · exact ⟨x, by simp, o.later (l4.ti ht) l5⟩
    · exact ⟨y, by simp, o.later (l4.ti ht) l5⟩
  · exact ⟨z, by simp, o5 l hl⟩

theorem Refuted.ext {vs : List Nat} {Wa Wb : World} (h1 : Wa.log <:+ W.log) (h2 : Tight (frame Wa) (frame W)) (h3 : W'.log <:+ Wb.log) (hp : Passed cc Wa W)
    (h : Refuted cc vs W W') : Refuted cc vs Wa Wb := by
  obtain ⟨cl, Wc, a1, a2, a3, a4, a5, a6⟩ := h
  exact ⟨cl, Wc, a1.trans h3, h1.trans a2, h2.trans a3, a4, a5, hp.trans a6⟩

theorem tight_of_vars (h : (frame W').1 = (frame W).1) : Tight (frame W) (frame W') := by
  refine ⟨by rw [h], fun v => ?_⟩
  unfold loF upF
  rw [h]
  exact ⟨Int.le_refl _, Int.le_refl _⟩

/-! ### The constraint is in the queue -/

section
variable {ck : Bool} {c : CState}

theorem checkOne_refuted (ht : TI W) (hn : ∀ v, loF (frame W) v ≤ upF (frame W) v) (hc : W.book.cs[n]? = some c) (hk : c.con = .nonlinear clit ca x y cb z r)
    (hv : NoValues ca x y cb z r (frame W)) (hf : cc.isFalse W.log clit = false) (h : checkOne cc ck n W = .ok (true, W')) : Refuted cc [x, y, z] W W' := by
  unfold checkOne at h
  obtain ⟨c', W1, h1, h2⟩ := SM.bind_ok h
  obtain ⟨⟨hcs, hal⟩, rfl⟩ := getCS_iff.mp h1
  rw [hc] at hcs; injection hcs with hcs; subst hcs
  obtain ⟨_, W2, h3, h4⟩ := SM.bind_ok h2
  injection h3 with h3
  obtain ⟨-, e⟩ := Prod.mk.inj h3
  obtain ⟨f', W3, h5, h6⟩ := SM.bind_ok h4
  obtain ⟨rfl, rfl⟩ := qFalse_iff.mp h5
  have hl := (List.getElem?_eq_some_iff.mp hc).1
  have hcs2 : W3.book.cs[n]? = some { c with todo := false } := by
    rw [← e]
    show (W1.book.cs.set n _)[n]? = _
    rw [List.getElem?_set_self hl]
  have hv2 : (frame W3).1 = (frame W1).1 := by rw [← e]; rfl
  have hlog : W3.log = W1.log := by rw [← e]
  have ht3 : TI W3 := by rw [← e]; exact ht.other rfl rfl rfl
  have e3 : loF (frame W3) = loF (frame W1) := by unfold loF; rw [hv2]
  have e4 : upF (frame W3) = upF (frame W1) := by unfold upF; rw [hv2]
  have hlit : c.con.lit = clit := by rw [hk]; rfl
  rw [hlit, hlog, hf] at h6
  have h6 : propagateCS cc ck n W3 = .ok (true, W') := h6
  unfold propagateCS at h6
  obtain ⟨c', W4, h7, h8⟩ := SM.bind_ok h6
  obtain ⟨⟨hc4, -⟩, rfl⟩ := getCS_iff.mp h7
  rw [hcs2] at hc4; injection hc4 with hc4; subst hc4
  have hcon : ({ c with todo := false } : CState).con = .nonlinear clit ca x y cb z r := hk
  rw [hcon] at h8
  have := nonlinearPropagate_detect ht3 (by rw [e3, e4]; exact hn) (by unfold NoValues; rw [e3, e4]; exact hv) h8
  exact this.ext (by rw [hlog]) (tight_of_vars hv2) (List.suffix_refl _) (fun P hP hi hp => by rw [← e]; exact hP.book _ _ rfl hp)

theorem checkTodo_refuted (hm : EnvMono cc) : ∀ {ns : List Nat} {W : World}, n ∈ ns → TI W → (∀ v, loF (frame W) v ≤ upF (frame W) v) → W.book.cs[n]? = some c →
    c.con = .nonlinear clit ca x y cb z r → NoValues ca x y cb z r (frame W) → cc.isFalse W'.log clit = false → checkTodo cc ck ns W = .ok (true, W') → Refuted cc [x, y, z] W W'
  | [], W, hn, _, _, _, _, _, _, _ => by cases hn
  | m :: ns, W, hn, ht, hle, hc, hk, hv, hf, h => by
    unfold checkTodo at h
    obtain ⟨b, W1, h1, h2⟩ := SM.bind_ok h
    cases b with
    | false =>
      obtain ⟨_, W2, h3, h4⟩ := SM.bind_ok h2
      obtain ⟨e, -⟩ := pure_iff.mp h4
      cases e
    | true =>
      have h2 : checkTodo cc ck ns W1 = .ok (true, W') := h2
      have g1 : W.log <:+ W1.log := suffix_of (m := true) (ext_checkOne.ext _ _ _ h1)
      have g2 : W1.log <:+ W'.log := suffix_of (m := true) (ext_checkTodo.ext _ _ _ h2)
      have hf0 : cc.isFalse W.log clit = false := by
        cases hh : cc.isFalse W.log clit with
        | false => rfl
        | true => rw [mono_false hm (g1.trans g2) hh] at hf; cases hf
      by_cases hm' : m = n
      · have e : n = m := hm'.symm
        subst e
        exact (checkOne_refuted ht hle hc hk hv hf0 h1).ext (List.suffix_refl _) (Tight.refl _) g2 (fun P hP hi hp => hp)
      · obtain ⟨hc1, hx⟩ := (keepHere_checkOne (k := n) (c := c) (X := (frame W).1) hm').keep _ _ _ h1 ⟨hc, rfl⟩
        have e3 : loF (frame W1) = loF (frame W) := by unfold loF; rw [hx]
        have e4 : upF (frame W1) = upF (frame W) := by unfold upF; rw [hx]
        have ht1 : TI W1 := (kw_checkOne ti_prim.toPrim0).kw _ _ _ h1 ht
        exact (checkTodo_refuted hm ((List.mem_cons.mp hn).resolve_left (fun e => hm' e.symm)) ht1 (by rw [e3, e4]; exact hle) hc1 hk
          (by unfold NoValues; rw [e3, e4]; exact hv) hf h2).ext g1 (tight_of_vars hx) (List.suffix_refl _)
          (fun P hP hi hp => (kw_checkOne hP).kw _ _ _ h1 hp)

end

/-! ### Changed bounds are delivered -/

section
variable {level var : Nat} {d : Int} {m : Bool} {b b' : Book}

/-- The state of a nonlinear constraint that is not inactive; if `m` is true, then it is queued. -/
def Due (n : Nat) (K : Constr) (m : Bool) (b : Book) : Prop :=
  ∃ c, b.cs[n]? = some c ∧ c.con = K ∧ c.inactive = 0 ∧ (c.todo = true → n ∈ b.todo) ∧ (m = true → n ∈ b.todo)

variable {K : Constr}

theorem Due.markTodo {k : Nat} (h : Due n K m b) : Due n K m (b.markTodo k) ∧ (k = n → Due n K true (b.markTodo k)) := by
  obtain ⟨c, h1, h2, h3, h5, h6⟩ := h
  unfold Book.markTodo
  split
  · rename_i hn
    exact ⟨⟨c, h1, h2, h3, h5, h6⟩, fun e => by subst e; rw [h1] at hn; cases hn⟩
  · rename_i c' hc'
    split_ifs with h7 h8
    · refine ⟨⟨c, h1, h2, h3, h5, h6⟩, fun e => ?_⟩
      subst e
      rw [h1] at hc'; injection hc' with hc'; subst hc'
      unfold CState.markedInactive at h7
      rw [h3] at h7; simp at h7
    · refine ⟨⟨c, h1, h2, h3, h5, h6⟩, fun e => ?_⟩
      subst e
      rw [h1] at hc'; injection hc' with hc'; subst hc'
      exact ⟨c, h1, h2, h3, h5, fun _ => h5 h8⟩
    · by_cases e : k = n
      · subst e
        rw [h1] at hc'; injection hc' with hc'; subst hc'
        have : ∀ m, Due k K m { b with cs := b.cs.set k { c with todo := true }, todo := b.todo ++ [k] } := fun m =>
          ⟨{ c with todo := true }, List.getElem?_set_self (List.getElem?_eq_some_iff.mp h1).1, h2, h3, fun _ => List.mem_append_right _ (List.mem_singleton.mpr rfl),
            fun _ => List.mem_append_right _ (List.mem_singleton.mpr rfl)⟩
        exact ⟨this m, fun _ => this true⟩
      · exact ⟨⟨c, by show (b.cs.set k _)[n]? = _; rw [List.getElem?_set_ne e]; exact h1, h2, h3, fun ht => List.mem_append_left _ (h5 ht),
          fun hm => List.mem_append_left _ (h6 hm)⟩, fun h => absurd h e⟩

theorem updateWatches_due (hK : K = .nonlinear clit ca x y cb z r) : ∀ {ws : List (Int × Nat)} {m : Bool} {b : Book} {p : List (Int × Nat) × Book},
    Book.updateWatches level var d ws b = .ok p → Due n K m b →
    Due n K m p.2 ∧ p.2.watches = b.watches ∧ p.2.inLdiff = b.inLdiff ∧ ∀ s, (s, n) ∈ ws → (s, n) ∈ p.1 ∧ Due n K true p.2
  | [], m, b, p, h, hr => by
    injection h with h; subst h
    exact ⟨hr, rfl, rfl, fun s hs => by cases hs⟩
  | (s0, k) :: ws, m, b, p, h, hr => by
    unfold Book.updateWatches at h
    cases hc : b.cs[k]? with
    | none => rw [hc] at h; cases h
    | some c =>
      rw [hc] at h
      dsimp only at h
      split at h
      · rename_i hrem
        obtain ⟨a1, a2, a3, a4⟩ := updateWatches_due hK (b := { b with removed := b.removed ++ [(var, s0, k)] }) h hr
        refine ⟨a1, a2, a3, fun s hs => ?_⟩
        rcases List.mem_cons.mp hs with e | hs
        · exfalso
          obtain ⟨rfl, rfl⟩ := Prod.mk.inj e
          obtain ⟨c', h1, h2, h3, -⟩ := hr
          rw [hc] at h1; injection h1 with h1; subst h1
          unfold CState.removableAt CState.markedInactive at hrem
          rw [h3] at hrem; simp at hrem
        · exact a4 s hs
      · cases hu : c.update s0 d with
        | error e => rw [hu] at h; cases h
        | ok q0 =>
          rw [hu] at h
          simp only [bind, Except.bind] at h
          split at h
          · cases h
          · next q hx =>
            simp only [pure, Except.pure, Except.ok.injEq] at h
            subst h
            have fin : ∀ (m' : Bool) (b1 : Book), Due n K m' b1 → b1.watches = b.watches → b1.inLdiff = b.inLdiff → Book.updateWatches level var d ws b1 = .ok q → (k = n → m' = true) →
                Due n K m' q.2 ∧ q.2.watches = b.watches ∧ q.2.inLdiff = b.inLdiff ∧ ∀ s, (s, n) ∈ (s0, k) :: ws → (s, n) ∈ (s0, k) :: q.1 ∧ Due n K true q.2 := by
              intro m' b1 hb1 w1 w2 hx hm'
              obtain ⟨a1, a2, a3, a4⟩ := updateWatches_due hK hx hb1
              refine ⟨a1, a2.trans w1, a3.trans w2, fun s hs => ?_⟩
              rcases List.mem_cons.mp hs with e' | hs
              · obtain ⟨rfl, e⟩ := Prod.mk.inj e'
                obtain rfl := hm' e.symm
                exact ⟨by rw [e]; exact List.mem_cons_self .., a1⟩
              · exact ⟨List.mem_cons_of_mem _ (a4 s hs).1, (a4 s hs).2⟩
            by_cases e : k = n
            · have e' : n = k := e.symm
              subst e'
              obtain ⟨c', h1, h2, h3, h5, h6⟩ := hr
              rw [hc] at h1; injection h1 with h1; subst h1
              unfold CState.update at hu
              rw [h2, hK] at hu
              injection hu with hu
              subst hu
              dsimp only at hx
              rw [if_pos rfl] at hx
              have hl := (List.getElem?_eq_some_iff.mp hc).1
              have r1 : Due n K m { b with cs := b.cs.set n c } := ⟨_, List.getElem?_set_self hl, h2, h3, h5, h6⟩
              have r2 := (r1.markTodo (k := n)).2 rfl
              obtain ⟨a1, a2, a3, a4⟩ := fin true _ r2 markTodo_rest.1 markTodo_rest.2 hx (fun _ => rfl)
              refine ⟨?_, a2, a3, a4⟩
              obtain ⟨c9, j1, j2, j3, j4, j5⟩ := a1
              exact ⟨c9, j1, j2, j3, j4, fun _ => j5 rfl⟩
            · have r1 : Due n K m { b with cs := b.cs.set k q0.2 } := by
                obtain ⟨c', h1, h2, h3, h5, h6⟩ := hr
                exact ⟨c', by show (b.cs.set k _)[n]? = _; rw [List.getElem?_set_ne e]; exact h1, h2, h3, h5, h6⟩
              split at hx
              · exact fin m _ (r1.markTodo (k := k)).1 markTodo_rest.1 markTodo_rest.2 hx (fun h => absurd h e)
              · exact fin m _ r1 rfl rfl hx (fun h => absurd h e)

theorem updateConstraints_due {s : Int} {v : Nat} (hK : K = .nonlinear clit ca x y cb z r) (h : Book.updateConstraints level var d b = .ok b')
    (hr : Due n K m b) (hw : HasW n s v b) : Due n K m b' ∧ HasW n s v b' ∧ b'.inLdiff = b.inLdiff ∧ (var = v → Due n K true b') := by
  unfold Book.updateConstraints at h
  cases hws : b.watches[var]? with
  | none => rw [hws] at h; cases h
  | some ws =>
    rw [hws] at h
    dsimp only at h
    cases hu : Book.updateWatches level var d ws b with
    | error e => rw [hu] at h; cases h
    | ok p =>
      rw [hu] at h
      simp only [bind, Except.bind, pure, Except.pure, Except.ok.injEq] at h
      subst h
      obtain ⟨a1, a2, a3, a4⟩ := updateWatches_due hK hu hr
      unfold HasW at hw ⊢
      by_cases e : var = v
      · subst e
        rw [List.getD_eq_getElem?_getD, hws] at hw
        refine ⟨a1, ?_, a3, fun _ => (a4 s hw).2⟩
        show (s, n) ∈ (p.2.watches.set var p.1).getD var []
        rw [List.getD_eq_getElem?_getD, List.getElem?_set_self (by rw [a2]; exact (List.getElem?_eq_some_iff.mp hws).1)]
        exact (a4 s hw).1
      · refine ⟨a1, ?_, a3, fun h => absurd h e⟩
        show (s, n) ∈ (p.2.watches.set var p.1).getD v []
        rw [List.getD_eq_getElem?_getD, List.getElem?_set_ne e, a2, ← List.getD_eq_getElem?_getD]
        exact hw

theorem updateUppers_due {s : Int} {v : Nat} (hK : K = .nonlinear clit ca x y cb z r) : ∀ {vs : List Nat} {m : Bool} {b b' : Book},
    Book.updateUppers level vs b = .ok b' → Due n K m b → HasW n s v b → Due n K m b' ∧ HasW n s v b' ∧ b'.inLdiff = b.inLdiff ∧ (v ∈ vs → Due n K true b')
  | [], m, b, b', h, hr, hw => by
    injection h with h; subst h
    exact ⟨hr, hw, rfl, fun h => by cases h⟩
  | u :: vs, m, b, b', h, hr, hw => by
    unfold Book.updateUppers at h
    cases hb : Book.updateConstraints level u (b.udiff.getD u 0) b with
    | error e => rw [hb] at h; cases h
    | ok b1 =>
      rw [hb] at h
      obtain ⟨a1, a2, a3, a4⟩ := updateConstraints_due (v := v) hK hb hr hw
      obtain ⟨c1, c2, c3, c4⟩ := updateUppers_due (b := { b1 with udiff := b1.udiff.set u 0 }) hK h a1 a2
      refine ⟨c1, c2, c3.trans a3, fun hv => ?_⟩
      rcases List.mem_cons.mp hv with e | hv
      · exact (updateUppers_due (b := { b1 with udiff := b1.udiff.set u 0 }) hK h (a4 e.symm) a2).1
      · exact c4 hv

theorem updateLowers_due {s : Int} {v : Nat} (hK : K = .nonlinear clit ca x y cb z r) : ∀ {vs : List Nat} {m : Bool} {b b' : Book},
    Book.updateLowers level vs b = .ok b' → Due n K m b → HasW n s v b → Due n K m b' ∧ (v ∈ vs → Due n K true b')
  | [], m, b, b', h, hr, hw => by
    injection h with h; subst h
    exact ⟨hr, fun h => by cases h⟩
  | u :: vs, m, b, b', h, hr, hw => by
    unfold Book.updateLowers at h
    cases hb : Book.updateConstraints level u (b.ldiff.getD u 0) b with
    | error e => rw [hb] at h; cases h
    | ok b1 =>
      rw [hb] at h
      obtain ⟨a1, a2, a3, a4⟩ := updateConstraints_due (v := v) hK hb hr hw
      obtain ⟨c1, c4⟩ := updateLowers_due (b := { b1 with ldiff := b1.ldiff.set u 0 }) hK h a1 a2
      refine ⟨c1, fun hv => ?_⟩
      rcases List.mem_cons.mp hv with e | hv
      · exact (updateLowers_due (b := { b1 with ldiff := b1.ldiff.set u 0 }) hK h (a4 e.symm) a2).1
      · exact c4 hv

theorem deliver_due {s : Int} {v : Nat} {u : Unit} (hK : K = .nonlinear clit ca x y cb z r) (h : deliver level W = .ok (u, W'))
    (hr : Due n K m W.book) (hw : HasW n s v W.book) (hv : m = true ∨ v ∈ W.book.inUdiff ∨ v ∈ W.book.inLdiff) : Due n K true W'.book := by
  obtain ⟨b1, b2, h1, h2, rfl⟩ := deliver_parts h
  obtain ⟨a1, a2, a3, a4⟩ := updateUppers_due (v := v) hK h1 hr hw
  rcases hv with rfl | hv | hv
  · exact (updateLowers_due (v := v) hK h2 a1 a2).1
  · exact (updateLowers_due (v := v) hK h2 (a4 hv) a2).1
  · exact (updateLowers_due (v := v) hK h2 a1 a2).2 (by rw [a3]; exact hv)

theorem nonlinear_watch {v : Nat} {c : CState} (hb : BI (frame W)) (hc : W.book.cs[n]? = some c) (ha : c.alive = true) (hk : c.con = .nonlinear clit ca x y cb z r) (hn : c.inactive = 0)
    (hv : v = x ∨ v = y ∨ cb ≠ 0 ∧ v = z) : ∃ s, HasW n s v W.book := by
  have hp := ((hb.track n c hc ha).pres (fun _ _ => by unfold CState.removableAt CState.markedInactive; rw [hn]; simp) v).1
  have : ∃ s, s ∈ own c v := by
    unfold own
    rw [hk]
    rcases hv with rfl | rfl | ⟨h0, rfl⟩
    · exact ⟨0, List.mem_map.mpr ⟨(0, v), List.mem_filter.mpr ⟨by simp [Constr.watches], by simp⟩, rfl⟩⟩
    · exact ⟨1, List.mem_map.mpr ⟨(1, v), List.mem_filter.mpr ⟨by simp [Constr.watches], by simp⟩, rfl⟩⟩
    · exact ⟨2, List.mem_map.mpr ⟨(2, v), List.mem_filter.mpr ⟨by simp [Constr.watches, h0], by simp⟩, rfl⟩⟩
  obtain ⟨s, this⟩ := this
  obtain ⟨w, h3, h4⟩ := List.mem_map.mp (hp.mem_iff.mpr this)
  obtain ⟨h5, h6⟩ := List.mem_filter.mp h3
  have h6 : w.2 = n := by simpa using h6
  refine ⟨s, ?_⟩
  have e : w = (s, n) := Prod.ext h4 h6
  rw [e] at h5
  exact h5

theorem checkRound_refuted {v fuel : Nat} {ck : Bool} {c : CState} (hm : EnvMono cc) (ht : TI W) (hle : ∀ v, loF (frame W) v ≤ upF (frame W) v) (hb : BI (frame W))
    (hc : W.book.cs[n]? = some c) (ha : c.alive = true) (hk : c.con = .nonlinear clit ca x y cb z r) (hn : c.inactive = 0) (hq : c.todo = true → n ∈ W.book.todo)
    (hw : v = x ∨ v = y ∨ cb ≠ 0 ∧ v = z) (hd : n ∈ W.book.todo ∨ v ∈ W.book.inUdiff ∨ v ∈ W.book.inLdiff) (hv : NoValues ca x y cb z r (frame W))
    (h6 : checkRound cc ck level fuel W = .ok (true, W')) : cc.isFalse W'.log clit = true ∨ Refuted cc [x, y, z] W W' := by
  unfold checkRound at h6
  obtain ⟨u, W5, h7, h8⟩ := SM.bind_ok h6
  obtain ⟨W5', W6, h9, h10⟩ := SM.bind_ok h8
  obtain ⟨rfl, rfl⟩ := get_iff.mp h9
  obtain ⟨ret, W7, h11, h12⟩ := SM.bind_ok h10
  obtain ⟨u', W8, h13, h14⟩ := SM.bind_ok h12
  rw [modify_iff] at h13
  subst h13
  obtain ⟨W9, W10, h15, h16⟩ := SM.bind_ok h14
  obtain ⟨rfl, rfl⟩ := get_iff.mp h15
  have hret : ret = true ∧ W7.log <:+ W'.log := by
    cases ret with
    | false =>
      obtain ⟨e, -⟩ := pure_iff.mp (show (Pure.pure false : SM Bool) _ = .ok (true, W') from h16)
      cases e
    | true =>
      refine ⟨rfl, ?_⟩
      split at h16
      · obtain ⟨-, rfl⟩ := pure_iff.mp h16
        exact List.suffix_refl _
      · have g : ({ W7 with book.todo := [] } : World).log <:+ W'.log := suffix_of (m := false) (ext_checkLoop.ext _ _ _ h16)
        exact g
  obtain ⟨rfl, hsuf⟩ := hret
  obtain ⟨s, hw⟩ := nonlinear_watch hb hc ha hk hn hw
  obtain ⟨c6, g1, g2, g3, g5, g6⟩ := deliver_due (m := decide (n ∈ W.book.todo)) (K := .nonlinear clit ca x y cb z r) rfl h7 ⟨c, hc, hk, hn, hq, of_decide_eq_true⟩ hw
    (hd.imp decide_eq_true id)
  obtain ⟨b1, b2, p1, p2, p3⟩ := deliver_parts h7
  have hx : (frame W6).1 = (frame W).1 := by rw [p3]; rfl
  have hlog : W6.log = W.log := by rw [p3]
  have ht6 : TI W6 := by rw [p3]; exact ht.other rfl rfl rfl
  have e3 : loF (frame W6) = loF (frame W) := by unfold loF; rw [hx]
  have e4 : upF (frame W6) = upF (frame W) := by unfold upF; rw [hx]
  by_cases hfl : cc.isFalse W7.log clit = true
  · exact .inl (mono_false hm hsuf hfl)
  · exact .inr ((checkTodo_refuted hm (g6 rfl) ht6 (by rw [e3, e4]; exact hle) g1 g2 (by unfold NoValues; rw [e3, e4]; exact hv) (by simpa using hfl) h11).ext (by rw [hlog])
      (tight_of_vars hx) hsuf (fun P hP hi hp => (kw_deliver hP).kw _ _ _ h7 hp))

/-- If a bound of a variable of a nonlinear constraint changed and no values between the bounds satisfy the constraint, then `check` adds a clause. -/
theorem solverCheck_refuted {v fuel : Nat} {ck : Bool} {c : CState} {l : Lvl} {ls : List Lvl} (hm : EnvMono cc) (ht : TI W) (hnest : AllNested W) (hb : BI (frame W))
    (hl : W.book.levels = l :: ls) (hlv : cc.level = l.level) (hc : W.book.cs[n]? = some c) (ha : c.alive = true) (hk : c.con = .nonlinear clit ca x y cb z r) (hn : c.inactive = 0)
    (hq : c.todo = true → n ∈ W.book.todo) (hw : v = x ∨ v = y ∨ cb ≠ 0 ∧ v = z) (hd : n ∈ W.book.todo ∨ v ∈ W.book.inUdiff ∨ v ∈ W.book.inLdiff) (hv : NoValues ca x y cb z r (frame W))
    (h : solverCheck cc ck fuel W = .ok (true, W')) : cc.isFalse W'.log clit = true ∨ Refuted cc [x, y, z] W W' := by
  have hat : At (l :: ls) (alF (frame W), auF (frame W), (frame W).1.length) (frame W) := ⟨hb, hl, fun _ _ _ _ _ => ⟨rfl, rfl⟩, rfl⟩
  unfold solverCheck at h
  obtain ⟨l', W1, h1, h2⟩ := SM.bind_ok h
  obtain ⟨rfl, ls', e⟩ := curLevel_at h1 hat
  obtain ⟨rfl, rfl⟩ := List.cons.inj e
  obtain ⟨W2, W3, h3, h4⟩ := SM.bind_ok h2
  obtain ⟨rfl, rfl⟩ := get_iff.mp h3
  rw [if_neg (by rintro ⟨h, -⟩; exact h hlv)] at h4
  cases fuel with
  | zero => cases h4
  | succ fuel =>
    unfold checkLoop at h4
    obtain ⟨b, W4, h5, h6⟩ := SM.bind_ok h4
    cases b with
    | false =>
      obtain ⟨e, -⟩ := pure_iff.mp (show (Pure.pure false : SM Bool) W4 = .ok (true, W') from h6)
      cases e
    | true =>
      have h6 : checkRound cc ck l.level fuel W4 = .ok (true, W') := h6
      have a4 := keep_integrateFacts.keep _ _ _ h5 hat
      have t4 : TI W4 := (kw_integrateFacts ti_prim.toPrimN.toPrimD).kw _ _ _ h5 ht
      have n4 : AllNested W4 := (kw_integrateFacts nested_prim.toPrimU.toPrimD).kw _ _ _ h5 hnest
      have b4 : Tight (frame W3) (frame W4) := (keepS_integrateFacts tight_stab).keep _ _ _ h5 (Tight.refl _)
      obtain ⟨p1, p2, p3⟩ := (keepP_integrateFacts (p := n ∈ W3.book.todo) (q := True) (r := True) (w := v) (C := W3.book.cs) (T := W3.book.todo)).keep _ _ _ h5
        ⟨rfl, rfl, hd.imp id (Or.imp (⟨trivial, ·⟩) (⟨trivial, ·⟩))⟩
      have p3 := p3.imp id (Or.imp (·.2) (·.2))
      have g4 : W3.log <:+ W4.log := suffix_of (m := false) (ext_integrateFacts.ext _ _ _ h5)
      have p1 : W4.book.cs = W3.book.cs := p1
      have p2 : W4.book.todo = W3.book.todo := p2
      have hv4 : NoValues ca x y cb z r (frame W4) := by
        intro a b d q1 q2 q3 q4 q5 q6
        have := b4.2 x
        have := b4.2 y
        have := b4.2 z
        exact hv a b d (by omega) (by omega) (by omega) (by omega) (by omega) (by omega)
      exact (checkRound_refuted hm t4 (bounds_le n4) a4.bi (by rw [p1]; exact hc) ha hk hn (by rw [p2]; exact hq) hw (by rw [p2]; exact p3) hv4 h6).imp id (fun h => h.ext g4 b4 (List.suffix_refl _) (fun P hP hi hp => hi.kw _ _ _ h5 hp))

end

/-! ### The clause is conflicting -/

theorem with_nonzero {v : Nat} {vs : VarState} {k l : Int} (ht : TI W) (hv : W.vars[v]? = some vs) (hm : (k, l) ∈ vs.with) : l ≠ 0 := by
  rintro rfl
  obtain ⟨e, h1, h2, -⟩ := ht.own v vs k 0 hv hm (by decide)
  have := (ht.link _ e h1 h2).1
  simp [mapOffset] at this

/-- Literals for the current bounds are false if the bounds are justified. -/
theorem OffBound.false {v : Nat} {l : Int} (ht : TI W) (hn : AllNested W) (hb : BoundLits cc W) (hT : cc.isTrue W.log TRUE_LIT = true) (h : OffBound W v l) :
    cc.isFalse W.log l = true := by
  have hT' : cc.isFalse W.log (-TRUE_LIT) = true := by rw [isFalse_neg (by decide)]; exact hT
  rcases h with ⟨vs, hv, h⟩ | ⟨vs, hv, h⟩
  · obtain ⟨e1, e2⟩ := boundsOf_var hv
    rw [e2] at h
    have hne : Nested vs := nested_bounds.mp (hn _ (List.mem_map.mpr ⟨vs, List.mem_of_getElem? hv, rfl⟩))
    have r1 := hne.min
    have r2 := hne.max
    have hle := hne.le
    rcases h with ⟨a, b⟩ | ⟨a, b, c⟩ | ⟨a, b, c⟩
    · omega
    · have : l = -TRUE_LIT := by omega
      rw [this]; exact hT'
    · obtain ⟨l', hm, hl⟩ := (hb v vs hv).2 b
      have e := with_unique (ht.wf v vs hv) c hm
      have : l = -l' := by omega
      rw [this, isFalse_neg (with_nonzero ht hv hm)]; exact hl
  · obtain ⟨e1, e2⟩ := boundsOf_var hv
    rw [e1] at h
    have hne : Nested vs := nested_bounds.mp (hn _ (List.mem_map.mpr ⟨vs, List.mem_of_getElem? hv, rfl⟩))
    have r1 := hne.min
    have r2 := hne.max
    have hle := hne.le
    rcases h with ⟨a, b⟩ | ⟨a, b, c⟩ | ⟨a, b, c⟩
    · rw [b]; exact hT'
    · omega
    · obtain ⟨l', hm, hl⟩ := (hb v vs hv).1 (by omega)
      rw [with_unique (ht.wf v vs hv) c hm]; exact hl

/-- All literals of the clause are false when it is accepted. -/
theorem Refuted.false {vs : List Nat} (hm : EnvMono cc) (h0 : cc.level ≠ 0) (ht : TI W) (hn : AllNested W) (hb : BoundLits cc W) (hT : cc.isTrue W.log TRUE_LIT = true)
    (h : Refuted cc vs W W') : ∃ cl log, (.clause cl :: log) <:+ W'.log ∧ W.log <:+ log ∧ (∀ l ∈ cl, cc.isFalse log l = true) ∧ cc.accept (.clause cl :: log) = true := by
  obtain ⟨cl, Wa, a1, a2, a3, a4, a5, a6⟩ := h
  obtain ⟨new, e⟩ := a2
  have hd : Deep W Wa := ⟨a6 _ nested_prim.toPrim0 (kwi_integrateFacts h0) hn, a6 _ (kept_prim (W0 := W)).toPrim0 (kwi_integrateFacts h0) (Kept.refl ht),
    a6 _ (sameB_prim (X := (frame W).1)) (kwi_integrateFacts h0) rfl, new, e.symm⟩
  refine ⟨cl, Wa.log, a1, ⟨new, e⟩, fun l hl => ?_, a5⟩
  obtain ⟨v, -, ho⟩ := a4 l hl
  exact ho.false hd.kept.ti hd.nested (hd.just hm hb) (mono_true hm ⟨new, e⟩ hT)

end Clingcon
