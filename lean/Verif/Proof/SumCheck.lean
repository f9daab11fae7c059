import Verif.Proof.NonlinearCheck
import Verif.Proof.SumDetect
import Verif.Proof.SafeCheck

/-! Violated linear constraints: the function `check`. -/
set_option linter.unusedSimpArgs false
set_option linter.unusedVariables false
namespace Clingcon
open Spec VarState

variable {α γ : Type} {W W' : World} {cc : CC} {n : Nat} {clit r : Int} {es : List (Int × Nat)}

/-! ### Propagation -/

section
variable {ck : Bool} {c : CState}

theorem sumPropagate_posted (hv : EnvMono cc) (hcs : W.book.cs[n]? = some c) (hle : c.lower ≤ c.upper) (hconf : r < c.lower)
    (h : sumPropagate cc n ck false clit r es W = .ok (true, W')) : Posted cc W W' clit := by
  obtain ⟨c', hc', -, -, hx⟩ := sumPropagate_cases h
  rw [hcs] at hc'
  injection hc' with hc'
  subst hc'
  rcases hx with ⟨hx, -⟩ | ⟨-, -, hx⟩ | ⟨-, hx, -⟩
  · omega
  · rcases hx with ⟨e, -⟩ | ⟨reason, W1, u, W2, h1, h2, h3⟩
    · cases e
    · rcases sumReason_ref hv h1 (by simp) with ⟨r1, e, h4⟩ | ⟨e, -⟩
      · injection e with e
        subst e
        have e2 : W2.log = W1.log := by
          unfold markInactiveS at h2
          simp only [smok] at h2
          obtain ⟨l, W3, ⟨-, rfl⟩, rfl⟩ := h2
          rfl
        obtain ⟨hacc, e3⟩ := addClause_iff.mp (show addClause cc _ W2 = _ from h3)
        have e4 : W'.log = .clause (reason ++ [-clit]) :: W1.log := by rw [e3, ← e2]
        refine ⟨_, W1.log, by rw [e4], suffix_of (m := true) (ext_sumReason.ext _ _ _ h1), fun y hy => ?_, by rw [← e2]; exact hacc.symm⟩
        rcases List.mem_append.mp hy with hy | hy
        · exact .inr (h4 y hy)
        · exact .inl (List.mem_singleton.mp hy)
      · cases e
  · omega

/-! ### The constraint is in the queue -/

theorem checkOne_posted (hv : EnvMono cc) (hc : W.book.cs[n]? = some c) (hk : c.con = .sum clit r es) (hle : c.lower ≤ c.upper) (hconf : r < c.lower)
    (hf : cc.isFalse W.log clit = false) (h : checkOne cc ck n W = .ok (true, W')) : Posted cc W W' clit := by
  unfold checkOne at h
  obtain ⟨c', W1, h1, h2⟩ := SM.bind_ok h
  obtain ⟨⟨hcs, hal⟩, rfl⟩ := getCS_iff.mp h1
  rw [hc] at hcs; injection hcs with hcs; subst hcs
  obtain ⟨_, W2, h3, h4⟩ := SM.bind_ok h2
  injection h3 with h3
  obtain ⟨-, e⟩ := Prod.mk.inj h3
  obtain ⟨f', W3, h5, h6⟩ := SM.bind_ok h4
  obtain ⟨rfl, rfl⟩ := qFalse_iff.mp h5
  have hl := (List.getElem?_eq_some_iff.mp hc).1
  have hcs2 : W3.book.cs[n]? = some { c with todo := false } := by
    rw [← e]
    show (W1.book.cs.set n _)[n]? = _
    rw [List.getElem?_set_self hl]
  have hlog : W3.log = W1.log := by rw [← e]
  have hlit : c.con.lit = clit := by rw [hk]; rfl
  rw [hlit, hlog, hf] at h6
  have h6 : propagateCS cc ck n W3 = .ok (true, W') := h6
  unfold propagateCS at h6
  obtain ⟨c', W4, h7, h8⟩ := SM.bind_ok h6
  obtain ⟨⟨hc4, -⟩, rfl⟩ := getCS_iff.mp h7
  rw [hcs2] at hc4; injection hc4 with hc4; subst hc4
  have hcon : ({ c with todo := false } : CState).con = .sum clit r es := hk
  rw [hcon] at h8
  obtain ⟨q, L, a1, a2, a3⟩ := sumPropagate_posted hv hcs2 hle hconf h8
  exact ⟨q, L, a1, hlog ▸ a2, a3⟩

theorem checkTodo_posted (hv : EnvMono cc) : ∀ {ns : List Nat} {W : World}, n ∈ ns → W.book.cs[n]? = some c → c.con = .sum clit r es → c.lower ≤ c.upper → r < c.lower →
    cc.isFalse W'.log clit = false → checkTodo cc ck ns W = .ok (true, W') → Posted cc W W' clit
  | [], W, hn, _, _, _, _, _, _ => by cases hn
  | m :: ns, W, hn, hc, hk, hle, hconf, hf, h => by
    unfold checkTodo at h
    obtain ⟨b, W1, h1, h2⟩ := SM.bind_ok h
    cases b with
    | false =>
      obtain ⟨_, W2, h3, h4⟩ := SM.bind_ok h2
      obtain ⟨e, -⟩ := pure_iff.mp h4
      cases e
    | true =>
      have h2 : checkTodo cc ck ns W1 = .ok (true, W') := h2
      have g1 : W.log <:+ W1.log := suffix_of (m := true) (ext_checkOne.ext _ _ _ h1)
      have g2 : W1.log <:+ W'.log := suffix_of (m := true) (ext_checkTodo.ext _ _ _ h2)
      have hf0 : cc.isFalse W.log clit = false := by
        cases hh : cc.isFalse W.log clit with
        | false => rfl
        | true => rw [mono_false hv (g1.trans g2) hh] at hf; cases hf
      by_cases hm : m = n
      · have e : n = m := hm.symm
        subst e
        obtain ⟨q, L, a1, a2, a3⟩ := checkOne_posted hv hc hk hle hconf hf0 h1
        exact ⟨q, L, a1.trans g2, a2, a3⟩
      · obtain ⟨hc1, hx⟩ := (keepHere_checkOne (k := n) (c := c) (X := (frame W).1) hm).keep _ _ _ h1 ⟨hc, rfl⟩
        obtain ⟨q, L, a1, a2, a3⟩ := checkTodo_posted hv ((List.mem_cons.mp hn).resolve_left (fun e => hm e.symm)) hc1 hk hle hconf hf h2
        exact ⟨q, L, a1, g1.trans a2, a3⟩

end

/-! ### Changed bounds are delivered -/

section
variable {level var : Nat} {d : Int} {m : Bool} {b b' : Book} {K : Constr}

theorem Due.queued (h : Due n K true b) : Due n K m b := by
  obtain ⟨c, h1, h2, h3, h4, h5⟩ := h
  exact ⟨c, h1, h2, h3, h4, fun _ => h5 rfl⟩

theorem markTodo_diffs {k : Nat} : (b.markTodo k).ldiff = b.ldiff ∧ (b.markTodo k).udiff = b.udiff := by
  unfold Book.markTodo
  split
  · exact ⟨rfl, rfl⟩
  · split_ifs <;> exact ⟨rfl, rfl⟩

/-- The parts of the state that are not changed. -/
def SameD (b b' : Book) : Prop := b'.watches = b.watches ∧ b'.inLdiff = b.inLdiff ∧ b'.ldiff = b.ldiff ∧ b'.udiff = b.udiff

theorem SameD.trans {b1 : Book} (h : SameD b b1) (h' : SameD b1 b') : SameD b b' :=
  ⟨h'.1.trans h.1, h'.2.1.trans h.2.1, h'.2.2.1.trans h.2.2.1, h'.2.2.2.trans h.2.2.2⟩

/-- The constraint is linear or an objective. -/
def Linear (K : Constr) (es : List (Int × Nat)) : Prop := (∃ l r, K = .sum l r es) ∨ ∃ a, K = .minimize a es

theorem updateWatches_wake (hK : Linear K es) : ∀ {ws : List (Int × Nat)} {m : Bool} {b : Book} {p : List (Int × Nat) × Book},
    Book.updateWatches level var d ws b = .ok p → Due n K m b →
    Due n K m p.2 ∧ SameD b p.2 ∧ ∀ s, (s, n) ∈ ws → (s, n) ∈ p.1 ∧ (0 < s * d → Due n K true p.2)
  | [], m, b, p, h, hr => by
    injection h with h; subst h
    exact ⟨hr, ⟨rfl, rfl, rfl, rfl⟩, fun s hs => by cases hs⟩
  | (s0, k) :: ws, m, b, p, h, hr => by
    unfold Book.updateWatches at h
    cases hc : b.cs[k]? with
    | none => rw [hc] at h; cases h
    | some c =>
      rw [hc] at h
      dsimp only at h
      split at h
      · rename_i hrem
        obtain ⟨a1, a2, a4⟩ := updateWatches_wake hK (b := { b with removed := b.removed ++ [(var, s0, k)] }) h hr
        refine ⟨a1, a2, fun s hs => ?_⟩
        rcases List.mem_cons.mp hs with e | hs
        · exfalso
          obtain ⟨rfl, rfl⟩ := Prod.mk.inj e
          obtain ⟨c', h1, h2, h3, -⟩ := hr
          rw [hc] at h1; injection h1 with h1; subst h1
          unfold CState.removableAt CState.markedInactive at hrem
          rw [h3] at hrem; simp at hrem
        · exact a4 s hs
      · cases hu : c.update s0 d with
        | error e => rw [hu] at h; cases h
        | ok q0 =>
          rw [hu] at h
          simp only [bind, Except.bind] at h
          split at h
          · cases h
          · next q hx =>
            simp only [pure, Except.pure, Except.ok.injEq] at h
            subst h
            have fin : ∀ (m' : Bool) (b1 : Book), Due n K m' b1 → SameD b b1 → Book.updateWatches level var d ws b1 = .ok q → (k = n → 0 < s0 * d → m' = true) →
                Due n K m' q.2 ∧ SameD b q.2 ∧ ∀ s, (s, n) ∈ (s0, k) :: ws → (s, n) ∈ (s0, k) :: q.1 ∧ (0 < s * d → Due n K true q.2) := by
              intro m' b1 hb1 w1 hx hm'
              obtain ⟨a1, a2, a4⟩ := updateWatches_wake hK hx hb1
              refine ⟨a1, w1.trans a2, fun s hs => ?_⟩
              rcases List.mem_cons.mp hs with e' | hs
              · obtain ⟨rfl, e⟩ := Prod.mk.inj e'
                refine ⟨by rw [e]; exact List.mem_cons_self .., fun hp => ?_⟩
                obtain rfl := hm' e.symm hp
                exact a1
              · exact ⟨List.mem_cons_of_mem _ (a4 s hs).1, (a4 s hs).2⟩
            by_cases e : k = n
            · have e' : n = k := e.symm
              subst e'
              obtain ⟨c', h1, h2, h3, h5, h6⟩ := hr
              rw [hc] at h1; injection h1 with h1; subst h1
              have hu : c.updateSum s0 d = .ok q0 := by
                unfold CState.update at hu
                rw [h2] at hu
                rcases hK with ⟨_, _, rfl⟩ | ⟨_, rfl⟩ <;> exact hu
              unfold CState.updateSum at hu
              have hl := (List.getElem?_eq_some_iff.mp hc).1
              split_ifs at hu with i1 i2
              · injection hu with hu
                subst hu
                dsimp only at hx
                rw [if_neg (by simp)] at hx
                have r1 : Due n K m { b with cs := b.cs.set n { c with upper := c.upper + s0 * d } } := ⟨_, List.getElem?_set_self hl, h2, h3, h5, h6⟩
                exact fin m _ r1 ⟨rfl, rfl, rfl, rfl⟩ hx (fun _ hp => by omega)
              · injection hu with hu
                subst hu
                dsimp only at hx
                rw [if_pos rfl] at hx
                have r1 : Due n K m { b with cs := b.cs.set n { c with lower := c.lower + s0 * d } } := ⟨_, List.getElem?_set_self hl, h2, h3, h5, h6⟩
                have r2 := (r1.markTodo (k := n)).2 rfl
                obtain ⟨a1, a2, a4⟩ := fin true _ r2 ⟨markTodo_rest.1, markTodo_rest.2, markTodo_diffs.1, markTodo_diffs.2⟩ hx (fun _ _ => rfl)
                exact ⟨a1.queued, a2, a4⟩
            · have r1 : Due n K m { b with cs := b.cs.set k q0.2 } := by
                obtain ⟨c', h1, h2, h3, h5, h6⟩ := hr
                exact ⟨c', by show (b.cs.set k _)[n]? = _; rw [List.getElem?_set_ne e]; exact h1, h2, h3, h5, h6⟩
              split at hx
              · exact fin m _ (r1.markTodo (k := k)).1 ⟨markTodo_rest.1, markTodo_rest.2, markTodo_diffs.1, markTodo_diffs.2⟩ hx (fun h => absurd h e)
              · exact fin m _ r1 ⟨rfl, rfl, rfl, rfl⟩ hx (fun h => absurd h e)

theorem updateConstraints_wake {s : Int} {v : Nat} (hK : Linear K es) (h : Book.updateConstraints level var d b = .ok b')
    (hr : Due n K m b) (hw : HasW n s v b) :
    Due n K m b' ∧ HasW n s v b' ∧ b'.inLdiff = b.inLdiff ∧ b'.ldiff = b.ldiff ∧ b'.udiff = b.udiff ∧ (var = v → 0 < s * d → Due n K true b') := by
  unfold Book.updateConstraints at h
  cases hws : b.watches[var]? with
  | none => rw [hws] at h; cases h
  | some ws =>
    rw [hws] at h
    dsimp only at h
    cases hu : Book.updateWatches level var d ws b with
    | error e => rw [hu] at h; cases h
    | ok p =>
      rw [hu] at h
      simp only [bind, Except.bind, pure, Except.pure, Except.ok.injEq] at h
      subst h
      obtain ⟨a1, ⟨a2, a3, a5, a6⟩, a4⟩ := updateWatches_wake hK hu hr
      unfold HasW at hw ⊢
      by_cases e : var = v
      · subst e
        rw [List.getD_eq_getElem?_getD, hws] at hw
        refine ⟨a1, ?_, a3, a5, a6, fun _ => (a4 s hw).2⟩
        show (s, n) ∈ (p.2.watches.set var p.1).getD var []
        rw [List.getD_eq_getElem?_getD, List.getElem?_set_self (by rw [a2]; exact (List.getElem?_eq_some_iff.mp hws).1)]
        exact (a4 s hw).1
      · refine ⟨a1, ?_, a3, a5, a6, fun h => absurd h e⟩
        show (s, n) ∈ (p.2.watches.set var p.1).getD v []
        rw [List.getD_eq_getElem?_getD, List.getElem?_set_ne e, a2, ← List.getD_eq_getElem?_getD]
        exact hw

theorem getD_set_zero {l : List Int} {u v : Nat} (h : u ≠ v) : (l.set u 0).getD v 0 = l.getD v 0 := by
  rw [List.getD_eq_getElem?_getD, List.getD_eq_getElem?_getD, List.getElem?_set_ne h]

theorem updateUppers_wake {s : Int} {v : Nat} (hK : Linear K es) : ∀ {vs : List Nat} {m : Bool} {b b' : Book},
    Book.updateUppers level vs b = .ok b' → Due n K m b → HasW n s v b →
    Due n K m b' ∧ HasW n s v b' ∧ b'.inLdiff = b.inLdiff ∧ b'.ldiff = b.ldiff ∧ (v ∈ vs → 0 < s * b.udiff.getD v 0 → Due n K true b')
  | [], m, b, b', h, hr, hw => by
    injection h with h; subst h
    exact ⟨hr, hw, rfl, rfl, fun h => by cases h⟩
  | u :: vs, m, b, b', h, hr, hw => by
    unfold Book.updateUppers at h
    cases hb : Book.updateConstraints level u (b.udiff.getD u 0) b with
    | error e => rw [hb] at h; cases h
    | ok b1 =>
      rw [hb] at h
      obtain ⟨a1, a2, a3, a5, a6, a4⟩ := updateConstraints_wake (v := v) hK hb hr hw
      obtain ⟨c1, c2, c3, c5, c4⟩ := updateUppers_wake (b := { b1 with udiff := b1.udiff.set u 0 }) hK h a1 a2
      refine ⟨c1, c2, c3.trans a3, c5.trans a5, fun hv hp => ?_⟩
      by_cases e : u = v
      · subst e
        exact (updateUppers_wake (b := { b1 with udiff := b1.udiff.set u 0 }) hK h (a4 rfl hp) a2).1
      · refine c4 ((List.mem_cons.mp hv).resolve_left (fun h => e h.symm)) ?_
        show 0 < s * (b1.udiff.set u 0).getD v 0
        rw [getD_set_zero e, a6]
        exact hp

theorem updateLowers_wake {s : Int} {v : Nat} (hK : Linear K es) : ∀ {vs : List Nat} {m : Bool} {b b' : Book},
    Book.updateLowers level vs b = .ok b' → Due n K m b → HasW n s v b → Due n K m b' ∧ (v ∈ vs → 0 < s * b.ldiff.getD v 0 → Due n K true b')
  | [], m, b, b', h, hr, hw => by
    injection h with h; subst h
    exact ⟨hr, fun h => by cases h⟩
  | u :: vs, m, b, b', h, hr, hw => by
    unfold Book.updateLowers at h
    cases hb : Book.updateConstraints level u (b.ldiff.getD u 0) b with
    | error e => rw [hb] at h; cases h
    | ok b1 =>
      rw [hb] at h
      obtain ⟨a1, a2, a3, a5, a6, a4⟩ := updateConstraints_wake (v := v) hK hb hr hw
      obtain ⟨c1, c4⟩ := updateLowers_wake (b := { b1 with ldiff := b1.ldiff.set u 0 }) hK h a1 a2
      refine ⟨c1, fun hv hp => ?_⟩
      by_cases e : u = v
      · subst e
        exact (updateLowers_wake (b := { b1 with ldiff := b1.ldiff.set u 0 }) hK h (a4 rfl hp) a2).1
      · refine c4 ((List.mem_cons.mp hv).resolve_left (fun h => e h.symm)) ?_
        show 0 < s * (b1.ldiff.set u 0).getD v 0
        rw [getD_set_zero e, a5]
        exact hp

theorem deliver_wake {s : Int} {v : Nat} {u : Unit} (hK : Linear K es) (hb : BI (frame W)) (h : deliver level W = .ok (u, W'))
    (hr : Due n K m W.book) (hw : HasW n s v W.book) (hv : m = true ∨ s < 0 ∧ v ∈ W.book.inUdiff ∨ 0 < s ∧ v ∈ W.book.inLdiff) : Due n K true W'.book := by
  obtain ⟨b1, b2, h1, h2, rfl⟩ := deliver_parts h
  obtain ⟨a1, a2, a3, a5, a4⟩ := updateUppers_wake (v := v) hK h1 hr hw
  rcases hv with rfl | ⟨hs, hv⟩ | ⟨hs, hv⟩
  · exact (updateLowers_wake (v := v) hK h2 a1 a2).1
  · refine (updateLowers_wake (v := v) hK h2 (a4 hv ?_) a2).1
    have n1 := hb.upp.nonneg v
    have n2 := (hb.upp.chgd v).mp hv
    have n3 : W.book.udiff.getD v 0 < 0 := by
      have : udF (frame W) v = W.book.udiff.getD v 0 := rfl
      omega
    exact Int.mul_pos_of_neg_of_neg hs n3
  · refine (updateLowers_wake (v := v) hK h2 a1 a2).2 (by rw [a3]; exact hv) ?_
    have n1 := hb.low.nonneg v
    have n2 := (hb.low.chgd v).mp hv
    have n3 : 0 < W.book.ldiff.getD v 0 := by
      have : ldF (frame W) v = W.book.ldiff.getD v 0 := rfl
      omega
    rw [a5]
    exact Int.mul_pos hs n3

theorem sum_watch {v : Nat} {co : Int} {c : CState} (hb : BI (frame W)) (hc : W.book.cs[n]? = some c) (ha : c.alive = true) (hk : Linear c.con es) (hn : c.inactive = 0)
    (hv : (co, v) ∈ es) : HasW n co v W.book := by
  have hp := ((hb.track n c hc ha).pres (fun _ _ => by unfold CState.removableAt CState.markedInactive; rw [hn]; simp) v).1
  have : co ∈ own c v := by
    unfold own
    have e : c.con.watches = es := by rcases hk with ⟨_, _, hk⟩ | ⟨_, hk⟩ <;> rw [hk] <;> rfl
    rw [e]
    exact List.mem_map.mpr ⟨(co, v), List.mem_filter.mpr ⟨hv, by simp⟩, rfl⟩
  obtain ⟨w, h3, h4⟩ := List.mem_map.mp (hp.mem_iff.mpr this)
  obtain ⟨h5, h6⟩ := List.mem_filter.mp h3
  have h6 : w.2 = n := by simpa using h6
  have e : w = (co, n) := Prod.ext h4 h6
  rw [e] at h5
  exact h5

theorem checkRound_posted {v fuel : Nat} {co : Int} {ck : Bool} {c : CState} {l : Lvl} {ls : List Lvl} {A : (Nat → Nat → Int) × (Nat → Nat → Int) × Nat} (hm : EnvMono cc)
    (hle : ∀ v, loF (frame W) v ≤ upF (frame W) v) (hat : At (l :: ls) A (frame W))
    (hc : W.book.cs[n]? = some c) (ha : c.alive = true) (hk : c.con = .sum clit r es) (hn : c.inactive = 0) (hq : c.todo = true → n ∈ W.book.todo)
    (hw : (co, v) ∈ es) (hd : n ∈ W.book.todo ∨ co < 0 ∧ v ∈ W.book.inUdiff ∨ 0 < co ∧ v ∈ W.book.inLdiff) (hv : r < lowSum (loF (frame W)) (upF (frame W)) es)
    (h6 : checkRound cc ck l.level fuel W = .ok (true, W')) : cc.isFalse W'.log clit = true ∨ Posted cc W W' clit := by
  have hb := hat.bi
  unfold checkRound at h6
  obtain ⟨u, W5, h7, h8⟩ := SM.bind_ok h6
  obtain ⟨W5', W6, h9, h10⟩ := SM.bind_ok h8
  obtain ⟨rfl, rfl⟩ := get_iff.mp h9
  obtain ⟨ret, W7, h11, h12⟩ := SM.bind_ok h10
  obtain ⟨u', W8, h13, h14⟩ := SM.bind_ok h12
  rw [modify_iff] at h13
  subst h13
  obtain ⟨W9, W10, h15, h16⟩ := SM.bind_ok h14
  obtain ⟨rfl, rfl⟩ := get_iff.mp h15
  have hret : ret = true ∧ W7.log <:+ W'.log := by
    cases ret with
    | false =>
      obtain ⟨e, -⟩ := pure_iff.mp (show (Pure.pure false : SM Bool) _ = .ok (true, W') from h16)
      cases e
    | true =>
      refine ⟨rfl, ?_⟩
      split at h16
      · obtain ⟨-, rfl⟩ := pure_iff.mp h16
        exact List.suffix_refl _
      · have g : ({ W7 with book.todo := [] } : World).log <:+ W'.log := suffix_of (m := false) (ext_checkLoop.ext _ _ _ h16)
        exact g
  obtain ⟨rfl, hsuf⟩ := hret
  obtain ⟨c6, g1, g2, g3, g5, g6⟩ := deliver_wake (m := decide (n ∈ W.book.todo)) (K := .sum clit r es) (.inl ⟨_, _, rfl⟩) hb h7 ⟨c, hc, hk, hn, hq, of_decide_eq_true⟩
    (sum_watch hb hc ha (.inl ⟨_, _, hk⟩) hn hw) (hd.imp decide_eq_true id)
  obtain ⟨a2, q2⟩ := deliver_eff h7 hat
  obtain ⟨b1, b2, p1, p2, p3⟩ := deliver_parts h7
  have hx : (frame W6).1 = (frame W).1 := by rw [p3]; rfl
  have hlog : W6.log = W.log := by rw [p3]
  have ha6 : c6.alive = true := by
    have hs := keepT_deliver (K := W.book.cs.map acon) (I := W.book.inactive) (M := (W.book.minimizeBound, W.book.minimizeLevel)).keep _ _ _ h7
      ⟨rfl, List.prefix_refl _, rfl⟩
    obtain ⟨c0, k1, k2, -⟩ := acon_get hs.1 g1
    rw [hc] at k1; injection k1 with k1; subst k1
    exact k2.trans ha
  have e3 : loF (frame W6) = loF (frame W) := by unfold loF; rw [hx]
  have e4 : upF (frame W6) = upF (frame W) := by unfold upF; rw [hx]
  have hct : Counted c6 (loF (frame W6)) (upF (frame W6)) :=
    Chk.counted (L := l :: ls) (T := W6.book.todo) (F := frame W6) ⟨a2, q2, rfl⟩ (g6 rfl) g1 ha6
  unfold Counted Mid at hct
  rw [g2] at hct
  simp only [signSum, Int.zero_mul, Int.mul_zero, Int.add_zero] at hct
  rw [e3, e4] at hct
  have hsum := lowSum_le hle (es := es)
  by_cases hfl : cc.isFalse W7.log clit = true
  · exact .inl (mono_false hm hsuf hfl)
  · obtain ⟨q, L, z1, z2, z3⟩ := checkTodo_posted hm (g6 rfl) g1 g2 (by rw [hct.1, hct.2]; exact hsum) (by rw [hct.1]; exact hv) (by simpa using hfl) h11
    exact .inr ⟨q, L, z1.trans hsuf, hlog ▸ z2, z3⟩

/-- If a bound changed so that the least value of a linear constraint increased and exceeds the right-hand side, then `check` adds a clause. -/
theorem solverCheck_posted {v fuel : Nat} {co : Int} {ck : Bool} {c : CState} {l : Lvl} {ls : List Lvl} (hm : EnvMono cc) (hnest : AllNested W) (hb : BI (frame W))
    (hl : W.book.levels = l :: ls) (hlv : cc.level = l.level) (hc : W.book.cs[n]? = some c) (ha : c.alive = true) (hk : c.con = .sum clit r es) (hn : c.inactive = 0)
    (hq : c.todo = true → n ∈ W.book.todo) (hw : (co, v) ∈ es) (hd : n ∈ W.book.todo ∨ co < 0 ∧ v ∈ W.book.inUdiff ∨ 0 < co ∧ v ∈ W.book.inLdiff)
    (hv : r < lowSum (loF (frame W)) (upF (frame W)) es) (h : solverCheck cc ck fuel W = .ok (true, W')) : cc.isFalse W'.log clit = true ∨ Posted cc W W' clit := by
  have hat : At (l :: ls) (alF (frame W), auF (frame W), (frame W).1.length) (frame W) := ⟨hb, hl, fun _ _ _ _ _ => ⟨rfl, rfl⟩, rfl⟩
  unfold solverCheck at h
  obtain ⟨l', W1, h1, h2⟩ := SM.bind_ok h
  obtain ⟨rfl, ls', e⟩ := curLevel_at h1 hat
  obtain ⟨rfl, rfl⟩ := List.cons.inj e
  obtain ⟨W2, W3, h3, h4⟩ := SM.bind_ok h2
  obtain ⟨rfl, rfl⟩ := get_iff.mp h3
  rw [if_neg (by rintro ⟨h, -⟩; exact h hlv)] at h4
  cases fuel with
  | zero => cases h4
  | succ fuel =>
    unfold checkLoop at h4
    obtain ⟨b, W4, h5, h6⟩ := SM.bind_ok h4
    cases b with
    | false =>
      obtain ⟨e, -⟩ := pure_iff.mp (show (Pure.pure false : SM Bool) W4 = .ok (true, W') from h6)
      cases e
    | true =>
      have h6 : checkRound cc ck l.level fuel W4 = .ok (true, W') := h6
      have a4 := keep_integrateFacts.keep _ _ _ h5 hat
      have n4 : AllNested W4 := (kw_integrateFacts nested_prim.toPrimU.toPrimD).kw _ _ _ h5 hnest
      have b4 : Tight (frame W3) (frame W4) := (keepS_integrateFacts tight_stab).keep _ _ _ h5 (Tight.refl _)
      obtain ⟨p1, p2, p3⟩ := (keepP_integrateFacts (p := n ∈ W3.book.todo) (q := co < 0) (r := 0 < co) (w := v) (C := W3.book.cs) (T := W3.book.todo)).keep _ _ _ h5 ⟨rfl, rfl, hd⟩
      have g4 : W3.log <:+ W4.log := suffix_of (m := false) (ext_integrateFacts.ext _ _ _ h5)
      have p1 : W4.book.cs = W3.book.cs := p1
      have p2 : W4.book.todo = W3.book.todo := p2
      have hs := lowSum_mono b4.2 (es := es)
      rcases checkRound_posted hm (bounds_le n4) a4 (by rw [p1]; exact hc) ha hk hn (by rw [p2]; exact hq) hw (by rw [p2]; exact p3) (by omega) h6 with hh | ⟨q, L, z1, z2, z3⟩
      · exact .inl hh
      · exact .inr ⟨q, L, z1, g4.trans z2, z3⟩

end

end Clingcon
