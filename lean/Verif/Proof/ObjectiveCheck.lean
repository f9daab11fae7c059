import Verif.Proof.SumCheck

/-! Objectives whose least value exceeds the bound: the function `check`. -/
set_option linter.unusedSimpArgs false
set_option linter.unusedVariables false
namespace Clingcon
open Spec VarState

variable {α γ : Type} {W W' : World} {cc : CC} {n : Nat} {adj r : Int} {es : List (Int × Nat)}

/-- A volatile clause has been added and accepted in which all literals are false except for the negated true literal. -/
def Pruned (cc : CC) (W W' : World) : Prop :=
  ∃ q L, (.volatile q :: L) <:+ W'.log ∧ W.log <:+ L ∧ (∀ y ∈ q, y = -TRUE_LIT ∨ cc.isFalse L y = true) ∧ cc.accept (.volatile q :: L) = true

section
variable {ck : Bool} {c : CState}

theorem sumPropagate_pruned (hv : EnvMono cc) (hcs : W.book.cs[n]? = some c) (hle : c.lower ≤ c.upper) (hconf : r < c.lower)
    (h : sumPropagate cc n ck true TRUE_LIT r es W = .ok (true, W')) : Pruned cc W W' := by
  obtain ⟨c', hc', -, -, hx⟩ := sumPropagate_cases h
  rw [hcs] at hc'
  injection hc' with hc'
  subst hc'
  rcases hx with ⟨hx, -⟩ | ⟨-, -, hx⟩ | ⟨-, hx, -⟩
  · omega
  · rcases hx with ⟨e, -⟩ | ⟨reason, W1, u, W2, h1, h2, h3⟩
    · cases e
    · rcases sumReason_ref hv h1 (by simp) with ⟨r1, e, h4⟩ | ⟨e, -⟩
      · injection e with e
        subst e
        have e2 : W2.log = W1.log := by
          unfold markInactiveS at h2
          simp only [smok] at h2
          obtain ⟨l, W3, ⟨-, rfl⟩, rfl⟩ := h2
          rfl
        obtain ⟨hacc, e3⟩ := addVolatile_iff.mp (show addVolatile cc _ W2 = _ from h3)
        have e4 : W'.log = .volatile (reason ++ [-TRUE_LIT]) :: W1.log := by rw [e3, ← e2]
        refine ⟨_, W1.log, by rw [e4], suffix_of (m := true) (ext_sumReason.ext _ _ _ h1), fun y hy => ?_, by rw [← e2]; exact hacc.symm⟩
        rcases List.mem_append.mp hy with hy | hy
        · exact .inr (h4 y hy)
        · exact .inl (List.mem_singleton.mp hy)
      · cases e
  · omega

/-! ### The constraint is in the queue -/

theorem checkOne_pruned (hv : EnvMono cc) (hmb : W.book.minimizeBound = some r) (hc : W.book.cs[n]? = some c) (hk : c.con = .minimize adj es) (hle : c.lower ≤ c.upper) (hconf : r < c.lower)
    (hf : cc.isFalse W.log TRUE_LIT = false) (h : checkOne cc ck n W = .ok (true, W')) : Pruned cc W W' := by
  unfold checkOne at h
  obtain ⟨c', W1, h1, h2⟩ := SM.bind_ok h
  obtain ⟨⟨hcs, hal⟩, rfl⟩ := getCS_iff.mp h1
  rw [hc] at hcs; injection hcs with hcs; subst hcs
  obtain ⟨_, W2, h3, h4⟩ := SM.bind_ok h2
  injection h3 with h3
  obtain ⟨-, e⟩ := Prod.mk.inj h3
  obtain ⟨f', W3, h5, h6⟩ := SM.bind_ok h4
  obtain ⟨rfl, rfl⟩ := qFalse_iff.mp h5
  have hl := (List.getElem?_eq_some_iff.mp hc).1
  have hcs2 : W3.book.cs[n]? = some { c with todo := false } := by
    rw [← e]
    show (W1.book.cs.set n _)[n]? = _
    rw [List.getElem?_set_self hl]
  have hlog : W3.log = W1.log := by rw [← e]
  have hlit : c.con.lit = TRUE_LIT := by rw [hk]; rfl
  rw [hlit, hlog, hf] at h6
  have h6 : propagateCS cc ck n W3 = .ok (true, W') := h6
  unfold propagateCS at h6
  obtain ⟨c', W4, h7, h8⟩ := SM.bind_ok h6
  obtain ⟨⟨hc4, -⟩, rfl⟩ := getCS_iff.mp h7
  rw [hcs2] at hc4; injection hc4 with hc4; subst hc4
  have hcon : ({ c with todo := false } : CState).con = .minimize adj es := hk
  rw [hcon] at h8
  dsimp only at h8
  have hmb3 : W4.book.minimizeBound = some r := by rw [← e]; exact hmb
  obtain ⟨W5, W6, h9, h10⟩ := SM.bind_ok h8
  obtain ⟨rfl, rfl⟩ := get_iff.mp h9
  obtain ⟨o, W7, h11, h12⟩ := SM.bind_ok h10
  obtain ⟨h11, rfl⟩ := liftRes_iff.mp h11
  unfold minimizeRhs at h11
  rw [hmb3] at h11
  dsimp only at h11
  split_ifs at h11
  injection h11 with h11
  subst h11
  obtain ⟨q, L, a1, a2, a3⟩ := sumPropagate_pruned hv hcs2 hle hconf h12
  exact ⟨q, L, a1, hlog ▸ a2, a3⟩

theorem checkTodo_pruned (hv : EnvMono cc) : ∀ {ns : List Nat} {W : World}, n ∈ ns → W.book.minimizeBound = some r → W.book.cs[n]? = some c → c.con = .minimize adj es → c.lower ≤ c.upper → r < c.lower →
    cc.isFalse W'.log TRUE_LIT = false → checkTodo cc ck ns W = .ok (true, W') → Pruned cc W W'
  | [], W, hn, _, _, _, _, _, _, _ => by cases hn
  | m :: ns, W, hn, hmb, hc, hk, hle, hconf, hf, h => by
    unfold checkTodo at h
    obtain ⟨b, W1, h1, h2⟩ := SM.bind_ok h
    cases b with
    | false =>
      obtain ⟨_, W2, h3, h4⟩ := SM.bind_ok h2
      obtain ⟨e, -⟩ := pure_iff.mp h4
      cases e
    | true =>
      have h2 : checkTodo cc ck ns W1 = .ok (true, W') := h2
      have g1 : W.log <:+ W1.log := suffix_of (m := true) (ext_checkOne.ext _ _ _ h1)
      have g2 : W1.log <:+ W'.log := suffix_of (m := true) (ext_checkTodo.ext _ _ _ h2)
      have hf0 : cc.isFalse W.log TRUE_LIT = false := by
        cases hh : cc.isFalse W.log TRUE_LIT with
        | false => rfl
        | true => rw [mono_false hv (g1.trans g2) hh] at hf; cases hf
      by_cases hm : m = n
      · have e : n = m := hm.symm
        subst e
        obtain ⟨q, L, a1, a2, a3⟩ := checkOne_pruned hv hmb hc hk hle hconf hf0 h1
        exact ⟨q, L, a1.trans g2, a2, a3⟩
      · obtain ⟨hc1, hx⟩ := (keepHere_checkOne (k := n) (c := c) (X := (frame W).1) hm).keep _ _ _ h1 ⟨hc, rfl⟩
        have hmb1 : W1.book.minimizeBound = some r := by
          have hs := (keepT_checkOne (K := W.book.cs.map acon) (I := W.book.inactive) (M := (W.book.minimizeBound, W.book.minimizeLevel))).keep _ _ _ h1 ⟨rfl, List.prefix_refl _, rfl⟩
          rw [← hmb]
          exact congrArg Prod.fst hs.2.2
        obtain ⟨q, L, a1, a2, a3⟩ := checkTodo_pruned hv ((List.mem_cons.mp hn).resolve_left (fun e => hm e.symm)) hmb1 hc1 hk hle hconf hf h2
        exact ⟨q, L, a1, g1.trans a2, a3⟩

end

section
theorem checkRound_pruned {v fuel : Nat} {co : Int} {ck : Bool} {c : CState} {l : Lvl} {ls : List Lvl} {A : (Nat → Nat → Int) × (Nat → Nat → Int) × Nat} (hm : EnvMono cc)
    (hmb : W.book.minimizeBound = some r) (hle : ∀ v, loF (frame W) v ≤ upF (frame W) v) (hat : At (l :: ls) A (frame W))
    (hc : W.book.cs[n]? = some c) (ha : c.alive = true) (hk : c.con = .minimize adj es) (hn : c.inactive = 0) (hq : c.todo = true → n ∈ W.book.todo)
    (hw : (co, v) ∈ es) (hd : n ∈ W.book.todo ∨ co < 0 ∧ v ∈ W.book.inUdiff ∨ 0 < co ∧ v ∈ W.book.inLdiff) (hv : r < lowSum (loF (frame W)) (upF (frame W)) es)
    (h6 : checkRound cc ck l.level fuel W = .ok (true, W')) : cc.isFalse W'.log TRUE_LIT = true ∨ Pruned cc W W' := by
  have hb := hat.bi
  unfold checkRound at h6
  obtain ⟨u, W5, h7, h8⟩ := SM.bind_ok h6
  obtain ⟨W5', W6, h9, h10⟩ := SM.bind_ok h8
  obtain ⟨rfl, rfl⟩ := get_iff.mp h9
  obtain ⟨ret, W7, h11, h12⟩ := SM.bind_ok h10
  obtain ⟨u', W8, h13, h14⟩ := SM.bind_ok h12
  rw [modify_iff] at h13
  subst h13
  obtain ⟨W9, W10, h15, h16⟩ := SM.bind_ok h14
  obtain ⟨rfl, rfl⟩ := get_iff.mp h15
  have hret : ret = true ∧ W7.log <:+ W'.log := by
    cases ret with
    | false =>
      obtain ⟨e, -⟩ := pure_iff.mp (show (Pure.pure false : SM Bool) _ = .ok (true, W') from h16)
      cases e
    | true =>
      refine ⟨rfl, ?_⟩
      split at h16
      · obtain ⟨-, rfl⟩ := pure_iff.mp h16
        exact List.suffix_refl _
      · have g : ({ W7 with book.todo := [] } : World).log <:+ W'.log := suffix_of (m := false) (ext_checkLoop.ext _ _ _ h16)
        exact g
  obtain ⟨rfl, hsuf⟩ := hret
  obtain ⟨c6, g1, g2, g3, g5, g6⟩ := deliver_wake (m := decide (n ∈ W.book.todo)) (K := .minimize adj es) (.inr ⟨_, rfl⟩) hb h7 ⟨c, hc, hk, hn, hq, of_decide_eq_true⟩
    (sum_watch hb hc ha (.inr ⟨_, hk⟩) hn hw) (hd.imp decide_eq_true id)
  obtain ⟨a2, q2⟩ := deliver_eff h7 hat
  obtain ⟨b1, b2, p1, p2, p3⟩ := deliver_parts h7
  have hx : (frame W6).1 = (frame W).1 := by rw [p3]; rfl
  have hlog : W6.log = W.log := by rw [p3]
  have hmb6 : W6.book.minimizeBound = some r := by
    have hs := keepT_deliver (K := W.book.cs.map acon) (I := W.book.inactive) (M := (W.book.minimizeBound, W.book.minimizeLevel)).keep _ _ _ h7
      ⟨rfl, List.prefix_refl _, rfl⟩
    rw [← hmb]
    exact congrArg Prod.fst hs.2.2
  have ha6 : c6.alive = true := by
    have hs := keepT_deliver (K := W.book.cs.map acon) (I := W.book.inactive) (M := (W.book.minimizeBound, W.book.minimizeLevel)).keep _ _ _ h7
      ⟨rfl, List.prefix_refl _, rfl⟩
    obtain ⟨c0, k1, k2, -⟩ := acon_get hs.1 g1
    rw [hc] at k1; injection k1 with k1; subst k1
    exact k2.trans ha
  have e3 : loF (frame W6) = loF (frame W) := by unfold loF; rw [hx]
  have e4 : upF (frame W6) = upF (frame W) := by unfold upF; rw [hx]
  have hct : Counted c6 (loF (frame W6)) (upF (frame W6)) :=
    Chk.counted (L := l :: ls) (T := W6.book.todo) (F := frame W6) ⟨a2, q2, rfl⟩ (g6 rfl) g1 ha6
  unfold Counted Mid at hct
  rw [g2] at hct
  simp only [signSum, Int.zero_mul, Int.mul_zero, Int.add_zero] at hct
  rw [e3, e4] at hct
  have hsum := lowSum_le hle (es := es)
  by_cases hfl : cc.isFalse W7.log TRUE_LIT = true
  · exact .inl (mono_false hm hsuf hfl)
  · obtain ⟨q, L, z1, z2, z3⟩ := checkTodo_pruned hm (g6 rfl) hmb6 g1 g2 (by rw [hct.1, hct.2]; exact hsum) (by rw [hct.1]; exact hv) (by simpa using hfl) h11
    exact .inr ⟨q, L, z1.trans hsuf, hlog ▸ z2, z3⟩

/-- If a bound changed so that the least value of the objective increased and exceeds the bound, then `check` adds a volatile clause. -/
theorem solverCheck_pruned {v fuel : Nat} {co : Int} {ck : Bool} {c : CState} {l : Lvl} {ls : List Lvl} (hm : EnvMono cc) (hmb : W.book.minimizeBound = some r) (hnest : AllNested W) (hb : BI (frame W))
    (hl : W.book.levels = l :: ls) (hlv : cc.level = l.level) (hc : W.book.cs[n]? = some c) (ha : c.alive = true) (hk : c.con = .minimize adj es) (hn : c.inactive = 0)
    (hq : c.todo = true → n ∈ W.book.todo) (hw : (co, v) ∈ es) (hd : n ∈ W.book.todo ∨ co < 0 ∧ v ∈ W.book.inUdiff ∨ 0 < co ∧ v ∈ W.book.inLdiff)
    (hv : r < lowSum (loF (frame W)) (upF (frame W)) es) (h : solverCheck cc ck fuel W = .ok (true, W')) : cc.isFalse W'.log TRUE_LIT = true ∨ Pruned cc W W' := by
  have hat : At (l :: ls) (alF (frame W), auF (frame W), (frame W).1.length) (frame W) := ⟨hb, hl, fun _ _ _ _ _ => ⟨rfl, rfl⟩, rfl⟩
  unfold solverCheck at h
  obtain ⟨l', W1, h1, h2⟩ := SM.bind_ok h
  obtain ⟨rfl, ls', e⟩ := curLevel_at h1 hat
  obtain ⟨rfl, rfl⟩ := List.cons.inj e
  obtain ⟨W2, W3, h3, h4⟩ := SM.bind_ok h2
  obtain ⟨rfl, rfl⟩ := get_iff.mp h3
  rw [if_neg (by rintro ⟨h, -⟩; exact h hlv)] at h4
  cases fuel with
  | zero => cases h4
  | succ fuel =>
    unfold checkLoop at h4
    obtain ⟨b, W4, h5, h6⟩ := SM.bind_ok h4
    cases b with
    | false =>
      obtain ⟨e, -⟩ := pure_iff.mp (show (Pure.pure false : SM Bool) W4 = .ok (true, W') from h6)
      cases e
    | true =>
      have h6 : checkRound cc ck l.level fuel W4 = .ok (true, W') := h6
      have a4 := keep_integrateFacts.keep _ _ _ h5 hat
      have n4 : AllNested W4 := (kw_integrateFacts nested_prim.toPrimU.toPrimD).kw _ _ _ h5 hnest
      have b4 : Tight (frame W3) (frame W4) := (keepS_integrateFacts tight_stab).keep _ _ _ h5 (Tight.refl _)
      obtain ⟨p1, p2, p3⟩ := (keepP_integrateFacts (p := n ∈ W3.book.todo) (q := co < 0) (r := 0 < co) (w := v) (C := W3.book.cs) (T := W3.book.todo)).keep _ _ _ h5 ⟨rfl, rfl, hd⟩
      have g4 : W3.log <:+ W4.log := suffix_of (m := false) (ext_integrateFacts.ext _ _ _ h5)
      have p1 : W4.book.cs = W3.book.cs := p1
      have p2 : W4.book.todo = W3.book.todo := p2
      have hmb4 : W4.book.minimizeBound = some r := by
        have hs := (keepS_integrateFacts (steady_stab (n := 0) (K := W3.book.cs.map acon) (I := W3.book.inactive) (M := (W3.book.minimizeBound, W3.book.minimizeLevel))).toStab).keep _ _ _ h5
          ⟨rfl, List.prefix_refl _, rfl⟩
        rw [← hmb]
        exact congrArg Prod.fst hs.2.2
      have hs := lowSum_mono b4.2 (es := es)
      rcases checkRound_pruned hm hmb4 (bounds_le n4) a4 (by rw [p1]; exact hc) ha hk hn (by rw [p2]; exact hq) hw (by rw [p2]; exact p3) (by omega) h6 with hh | ⟨q, L, z1, z2, z3⟩
      · exact .inl hh
      · exact .inr ⟨q, L, z1, g4.trans z2, z3⟩

end

end Clingcon
