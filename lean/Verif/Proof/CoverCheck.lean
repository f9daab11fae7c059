import Verif.Proof.Cover
import Verif.Proof.SumDetect
import Verif.Proof.RunSound

/-! Violated linear constraints are not missed: the function `check`. -/
set_option linter.unusedSimpArgs false
set_option linter.unusedVariables false
namespace Clingcon
open Spec VarState

variable {α γ : Type} {W W' : World} {cc : CC} {n : Nat} {F F' : List VarState × Book} {f : Bool} {g : Int → Prop} {T : List Nat}
variable {L : List Lvl} {A : (Nat → Nat → Int) × (Nat → Nat → Int) × Nat} {K : List (Bool × Constr)} {I : List Nat} {M : Option Int × Nat}

theorem suffix_of {W W' : World} {m : Bool} (h : Grow m W W') : W.log <:+ W'.log := by
  obtain ⟨new, e⟩ := h.1
  exact ⟨new, e.symm⟩

theorem Answers.mid {W0 W1 W2 W3 : World} {m1 m2 m3 : Bool} (h : Answers cc W0 W3 true g) (h1 : Grow m1 W0 W1) (h2 : Grow m2 W1 W2) (h3 : Grow m3 W2 W3) :
    Answers cc W1 W2 true g := by
  refine ⟨h.mono, fun log l a b => h.isFalse log l ((suffix_of h1).trans a) (b.trans (suffix_of h3)), fun _ new e cl hcl => ?_⟩
  obtain ⟨n3, e3⟩ := h3.1
  obtain ⟨n1, e1⟩ := h1.1
  refine h.units rfl (n3 ++ new ++ n1) (by rw [e3, e, e1]; simp) cl ?_
  rcases hcl with hcl | hcl
  · exact Or.inl (List.mem_append_left _ (List.mem_append_right _ hcl))
  · exact Or.inr (List.mem_append_left _ (List.mem_append_right _ hcl))

theorem acon_get {cs cs' : List CState} (h : cs'.map acon = cs.map acon) {n : Nat} {c' : CState} (hc : cs'[n]? = some c') :
    ∃ c, cs[n]? = some c ∧ c'.alive = c.alive ∧ c'.con = c.con := by
  have h2 : (cs'.map acon)[n]? = some (acon c') := by rw [List.getElem?_map, hc]; rfl
  rw [h, List.getElem?_map] at h2
  cases hb : cs[n]? with
  | none => rw [hb] at h2; cases h2
  | some c => rw [hb] at h2; injection h2 with h2; obtain ⟨a, b⟩ := Prod.mk.inj h2; exact ⟨c, rfl, a.symm, b.symm⟩

theorem Rests.finish (hq : Rests f (n :: T) F) (hl : ∀ c, F.2.cs[n]? = some c → c.alive = true → n ∉ F.2.inactive → Low f F.2 c) : Rests f T F := by
  intro m c h1 h2 h3 h4
  by_cases hm : m = n
  · subst hm; exact hl c h1 h2 h4
  · exact hq m c h1 h2 (fun h => (List.mem_cons.mp h).elim hm h3) h4

theorem Out.finish (ho : Out g (· ≠ n) F) (ha : n ∈ F.2.inactive → Asd g n F) : Out g allC F := by
  intro m c h1 h2 _ h4
  by_cases hm : m = n
  · subst hm; exact ha h4 c h1 h2
  · exact ho m c h1 h2 hm h4

theorem Out.but (ho : Out g allC F) : Out g (· ≠ n) F := fun m c h1 h2 _ h4 => ho m c h1 h2 trivial h4

theorem markInactiveS_mem {u : Unit} (h : markInactiveS n W = .ok (u, W')) (hm : Marks T (frame W)) {c : CState} (hc : W.book.cs[n]? = some c)
    (hr : c.removable = true) : n ∈ W'.book.inactive := by
  unfold markInactiveS at h
  obtain ⟨l, W1, h1, h2⟩ := SM.bind_ok h
  obtain ⟨hl, rfl⟩ := curLevel_iff.mp h1
  obtain rfl := modify_iff.mp h2
  dsimp only
  unfold Book.markInactive
  rw [hc]
  dsimp only
  rw [hr]
  by_cases hk : c.markedInactive = true
  · rw [hk]
    have : 0 < c.inactive := by unfold CState.markedInactive at hk; simpa using hk
    have hmm : n ∈ W1.book.inactive := hm.2 n c hc this
    simpa using hmm
  · have hk : c.markedInactive = false := by simpa using hk
    rw [hk]
    simp

theorem propagateCS_cov {ck : Bool} (h : propagateCS cc ck n W = .ok (true, W')) (h1 : ¬ g 1) (ans : Answers cc W W' true g)
    (hk : ∀ c, W.book.cs[n]? = some c → c.alive = true → Counted c (loF (frame W)) (upF (frame W))) (hm : Marks T (frame W))
    (hq : Rests f (n :: T) (frame W)) (ho : Out g allC (frame W)) : Rests f T (frame W') ∧ Out g allC (frame W') := by
  have hq' : Rests f (n :: T) (frame W') := (keepS_propagateCS quiet_stab).keep _ _ _ h hq
  have ho' : Out g (· ≠ n) (frame W') := (keepS_propagateCS (out_stab (by simp))).keep _ _ _ h ho.but
  have hs := (keepS_propagateCS (steady_stab (K := W.book.cs.map acon) (I := W.book.inactive) (M := (W.book.minimizeBound, W.book.minimizeLevel)))).keep _ _ _ h
    ⟨rfl, List.prefix_refl _, rfl⟩
  have hQ : Rests f T (frame W) → Rests f T (frame W') := (keepS_propagateCS quiet_stab).keep _ _ _ h
  have hA : Asd g n (frame W) → Asd g n (frame W') := (keepS_propagateCS asd_stab).keep _ _ _ h
  have hN : NoMin n (frame W) → NoMin n (frame W') := (keepS_propagateCS noMin_stab).keep _ _ _ h
  have horig := h
  unfold propagateCS at h
  obtain ⟨c, W1, h2, h3⟩ := SM.bind_ok h
  obtain ⟨⟨hc, hal⟩, rfl⟩ := getCS_iff.mp h2
  have con' : ∀ c', W'.book.cs[n]? = some c' → c'.con = c.con := by
    intro c' hc'
    obtain ⟨c0, h4, -, h5⟩ := acon_get hs.1 hc'
    rw [hc] at h4; injection h4 with h4; subst h4
    exact h5
  have other : (∀ b c, c.con = _ → Low f b c) → (∀ lo up, asideC g lo up c.con) → Rests f T (frame W') ∧ Out g allC (frame W') := fun a b =>
    ⟨hq'.finish (fun c' h4 _ _ => a _ c' (con' c' h4)), ho'.finish (fun _ => fun c' h4 _ => by rw [con' c' h4]; exact b _ _)⟩
  cases hcon : c.con with
  | distinct l es => exact other (fun b c h => by unfold Low; rw [h, hcon]; trivial) (fun _ _ => by rw [hcon]; trivial)
  | nonlinear l ca x y cb z r => exact other (fun b c h => by unfold Low; rw [h, hcon]; trivial) (fun _ _ => by rw [hcon]; trivial)
  | disjoint l es => exact other (fun b c h => by unfold Low; rw [h, hcon]; trivial) (fun _ _ => by rw [hcon]; trivial)
  | sum l r es =>
    rw [hcon] at h3
    dsimp only at h3
    have hcnt := hk c hc hal
    unfold Counted Mid at hcnt
    rw [hcon] at hcnt
    simp only [signSum, Int.zero_mul, Int.add_zero, Int.mul_zero] at hcnt
    have asd : (upSum (loF (frame W1)) (upF (frame W1)) es ≤ r ∨ g l) → Asd g n (frame W1) := by
      intro hh c0 h4 _
      have h4 : W1.book.cs[n]? = some c0 := h4
      rw [hc] at h4; injection h4 with h4; subst h4
      rw [hcon]; exact hh
    have hrem : c.removable = true := by unfold CState.removable; rw [hcon]
    obtain ⟨c0, d1, d2, d3, d4⟩ := sumPropagate_cases h3
    rw [hc] at d1; injection d1 with d1; subst d1
    rcases d4 with ⟨e1, -, u, e2⟩ | ⟨-, e2, e3⟩ | ⟨-, e2, e3⟩
    · have hin := markInactiveS_mem e2 hm hc hrem
      exact ⟨hq'.finish (fun _ _ _ hni => absurd hin hni), ho'.finish (fun _ => hA (asd (Or.inl (by omega))))⟩
    · rcases e3 with ⟨e3, -⟩ | ⟨reason, W2, u, W3, e3, e4, e5⟩
      · cases e3
      have g1 : Grow true W1 W2 := ext_sumReason.ext _ _ _ e3
      have g2 : Grow true W2 W3 := ext_markInactiveS.ext _ _ _ e4
      have g3 : Grow true W3 W' := ext_addClauseT.ext _ _ _ e5
      have b2 : W2.book = W1.book := congrArg Prod.snd (fr_sumReason.fr _ _ _ e3)
      have f2 : frame W2 = frame W1 := fr_sumReason.fr _ _ _ e3
      have hin : n ∈ W3.book.inactive := markInactiveS_mem e4 (T := T) (by rw [f2]; exact hm) (by rw [b2]; exact hc) hrem
      obtain ⟨e, k1, k2, -, k4⟩ := addClauseT_log e5
      rw [← k4] at hin
      have hg : g l := by
        obtain ⟨n1, w1⟩ := g1.1
        obtain ⟨n2, w2⟩ := g2.1
        have hu := ans.units rfl (e :: n2 ++ n1) (by rw [k1, w2, w1]; simp) (reason ++ [-l]) (by
          rcases k2 with rfl | rfl
          · exact Or.inl (by simp)
          · exact Or.inr (by simp)) (-l) (by simp) (by
          intro x hx hne
          rcases List.mem_append.mp hx with hx | hx
          · rcases sumReason_ref ans.mono e3 (by simp) with ⟨r', q1, q2⟩ | ⟨q1, -⟩
            · injection q1 with q1; subst q1
              exact ans.isFalse _ _ (suffix_of g1) (suffix_of (g2.trans g3)) (q2 x hx)
            · cases q1
          · exact absurd (List.mem_singleton.mp hx) hne)
        rwa [Int.neg_neg] at hu
      exact ⟨hq'.finish (fun _ _ _ hni => absurd hin hni), ho'.finish (fun _ => hA (asd (Or.inr hg)))⟩
    · refine ⟨hQ (hq.finish (fun c0 h4 _ _ => ?_)), ho'.finish (fun hin => hA (fun c0 h4 h5 => ho n c0 h4 h5 trivial ?_))⟩
      · have h4 : W1.book.cs[n]? = some c0 := h4
        rw [hc] at h4; injection h4 with h4; subst h4
        unfold Low; rw [hcon]; exact e2
      · rcases e3 with ⟨-, -, rfl⟩ | ⟨-, e3⟩
        · exact hin
        · have : frame W' = frame W1 := fr_sumLoop.fr _ _ _ e3
          rw [← this]; exact hin
  | minimize a es =>
    rw [hcon] at h3
    dsimp only at h3
    obtain ⟨W2, W3, h4, h5⟩ := SM.bind_ok h3
    obtain ⟨rfl, rfl⟩ := get_iff.mp h4
    obtain ⟨o, W4, h6, h7⟩ := SM.bind_ok h5
    obtain ⟨h6, rfl⟩ := liftRes_iff.mp h6
    have hno : NoMin n (frame W4) := by
      refine ⟨fun c0 h4 => ?_, fun hin => ?_⟩
      · have h4 : W4.book.cs[n]? = some c0 := h4
        rw [hc] at h4; injection h4 with h4; subst h4
        exact ⟨a, es, hcon⟩
      · have := ho n c hc hal trivial hin
        rw [hcon] at this
        exact this
    suffices hl : Low f W4.book c by
      refine ⟨hQ (hq.finish (fun c0 h4 _ _ => ?_)), ho'.finish (fun hin => absurd hin (hN hno).2)⟩
      have h4 : W4.book.cs[n]? = some c0 := h4
      rw [hc] at h4; injection h4 with h4; subst h4
      exact hl
    unfold Low
    rw [hcon]
    intro hf v hv
    unfold minimizeRhs at h6
    rw [hv] at h6
    dsimp only at h6
    split_ifs at h6
    injection h6 with h6
    subst h6
    dsimp only at h7
    obtain ⟨c0, d1, d2, d3, d4⟩ := sumPropagate_cases h7
    rw [hc] at d1; injection d1 with d1; subst d1
    rcases d4 with ⟨e1, -⟩ | ⟨-, e2, e3⟩ | ⟨-, e2, e3⟩
    · exact Or.inr e1
    · rcases e3 with ⟨e3, -⟩ | ⟨reason, W2, u, W3, e3, e4, e5⟩
      · cases e3
      have g1 : Grow true W4 W2 := ext_sumReason.ext _ _ _ e3
      have g2 : Grow true W2 W3 := ext_markInactiveS.ext _ _ _ e4
      have g3 : Grow true W3 W' := ext_addClauseT.ext _ _ _ e5
      obtain ⟨e, k1, k2, -, k4⟩ := addClauseT_log e5
      refine absurd ?_ h1
      obtain ⟨n1, w1⟩ := g1.1
      obtain ⟨n2, w2⟩ := g2.1
      have hu := ans.units rfl (e :: n2 ++ n1) (by rw [k1, w2, w1]; simp) (reason ++ [-TRUE_LIT]) (by
        rcases k2 with rfl | rfl
        · exact Or.inl (by simp)
        · exact Or.inr (by simp)) (-TRUE_LIT) (by simp) (by
        intro x hx hne
        rcases List.mem_append.mp hx with hx | hx
        · rcases sumReason_ref ans.mono e3 (by simp) with ⟨r', q1, q2⟩ | ⟨q1, -⟩
          · injection q1 with q1; subst q1
            exact ans.isFalse _ _ (suffix_of g1) (suffix_of (g2.trans g3)) (q2 x hx)
          · cases q1
        · exact absurd (List.mem_singleton.mp hx) hne)
      rwa [Int.neg_neg] at hu
    · exact Or.inl e2

/-! ### Steps of `check` -/

/-- The bound of the objective. -/
def mview (b : Book) : Option Int × Nat := (b.minimizeBound, b.minimizeLevel)

theorem markTodo_mview {b : Book} {n : Nat} : mview (b.markTodo n) = mview b := by
  unfold Book.markTodo
  split
  · rfl
  · split_ifs <;> rfl

theorem markTodos_mview : ∀ {ns : List Nat} {b : Book}, mview (ns.foldl Book.markTodo b) = mview b
  | [], _ => rfl
  | n :: ns, b => by rw [List.foldl_cons, markTodos_mview, markTodo_mview]

theorem updateWatches_mview {level var : Nat} {d : Int} : ∀ {ws : List (Int × Nat)} {b : Book} {p : List (Int × Nat) × Book},
    Book.updateWatches level var d ws b = .ok p → mview p.2 = mview b
  | [], b, p, h => by
    injection h with h; subst h
    rfl
  | (i, n) :: ws, b, p, h => by
    unfold Book.updateWatches at h
    cases hc : b.cs[n]? with
    | none => rw [hc] at h; cases h
    | some c =>
      rw [hc] at h
      dsimp only at h
      split at h
      · exact (updateWatches_mview h).trans rfl
      · cases hu : c.update i d with
        | error e => rw [hu] at h; cases h
        | ok r =>
          rw [hu] at h
          simp only [bind, Except.bind] at h
          split at h
          · cases h
          · next q hx =>
            simp only [pure, Except.pure, Except.ok.injEq] at h
            subst h
            split at hx
            · exact ((updateWatches_mview hx).trans markTodo_mview).trans rfl
            · exact (updateWatches_mview hx).trans rfl

theorem updateConstraints_mview {level var : Nat} {d : Int} {b b' : Book} (h : Book.updateConstraints level var d b = .ok b') : mview b' = mview b := by
  unfold Book.updateConstraints at h
  cases hw : b.watches[var]? with
  | none => rw [hw] at h; cases h
  | some ws =>
    rw [hw] at h
    dsimp only at h
    cases hu : Book.updateWatches level var d ws b with
    | error e => rw [hu] at h; cases h
    | ok p =>
      rw [hu] at h
      simp only [bind, Except.bind, pure, Except.pure, Except.ok.injEq] at h
      subst h
      exact (updateWatches_mview hu)

theorem updateUppers_mview {level : Nat} : ∀ {vs : List Nat} {b b' : Book}, Book.updateUppers level vs b = .ok b' → mview b' = mview b
  | [], b, b', h => by injection h with h; subst h; rfl
  | v :: vs, b, b', h => by
    unfold Book.updateUppers at h
    cases hb : Book.updateConstraints level v (b.udiff.getD v 0) b with
    | error e => rw [hb] at h; cases h
    | ok b1 =>
      rw [hb] at h
      exact (updateUppers_mview (b := { b1 with udiff := b1.udiff.set v 0 }) h).trans (show mview b1 = mview b from updateConstraints_mview hb)

theorem updateLowers_mview {level : Nat} : ∀ {vs : List Nat} {b b' : Book}, Book.updateLowers level vs b = .ok b' → mview b' = mview b
  | [], b, b', h => by injection h with h; subst h; rfl
  | v :: vs, b, b', h => by
    unfold Book.updateLowers at h
    cases hb : Book.updateConstraints level v (b.ldiff.getD v 0) b with
    | error e => rw [hb] at h; cases h
    | ok b1 =>
      rw [hb] at h
      exact (updateLowers_mview (b := { b1 with ldiff := b1.ldiff.set v 0 }) h).trans (show mview b1 = mview b from updateConstraints_mview hb)

theorem Steady.of {b b' : Book} {vs vs' : List VarState} (h : Steady K I M (vs, b)) (ha : aview b' = aview b) (hm : mview b' = mview b) : Steady K I M (vs', b') := by
  obtain ⟨h1, h2, h3⟩ := h
  have e1 : b'.cs.map acon = b.cs.map acon := congrArg Prod.fst ha
  have e2 : b'.inactive = b.inactive := congrArg Prod.snd ha
  exact ⟨e1.trans h1, by show I <+: b'.inactive; rw [e2]; exact h2, hm.trans h3⟩

theorem keepT_deliver {level : Nat} : Keep (Steady K I M) (deliver level) := by
  refine ⟨fun W u W' h hp => ?_⟩
  obtain ⟨b1, b2, h1, h2, rfl⟩ := deliver_parts h
  exact Steady.of (b := W.book) (b' := b2) (vs := (frame W).1) (vs' := (frame W).1) hp ((updateLowers_aview h2).trans (updateUppers_aview h1))
    ((updateLowers_mview h2).trans (updateUppers_mview h1))

theorem keepT_checkOne {ck : Bool} : Keep (Steady K I M) (checkOne cc ck n) := by
  unfold checkOne
  refine ⟨fun W a W' h hp => ?_⟩
  obtain ⟨c, W1, h1, h2⟩ := SM.bind_ok h
  obtain ⟨⟨hc, hal⟩, rfl⟩ := getCS_iff.mp h1
  obtain ⟨_, W2, h3, h4⟩ := SM.bind_ok h2
  injection h3 with h3
  obtain ⟨-, rfl⟩ := Prod.mk.inj h3
  have hk : Keep (Steady K I M) (qFalse cc c.con.lit >>= fun f => if (!f) = true then propagateCS cc ck n else (markInactiveS n >>= fun _ => Pure.pure true)) := by
    refine Keep.bind (Keep.fr Fr.qFalse) (fun b => ?_)
    split
    · exact keepS_propagateCS steady_stab
    · exact Keep.bind (keepS_markInactiveS steady_stab) (fun _ => Keep.fr Fr.pure)
  exact hk.keep _ _ _ h4 (Steady.of (b := W1.book) (vs := (frame W1).1) hp (aview_set (c' := { c with todo := false }) hc rfl) rfl)

theorem keepT_checkTodo {ck : Bool} : ∀ {ns : List Nat}, Keep (Steady K I M) (checkTodo cc ck ns)
  | [] => by unfold checkTodo; exact Keep.fr Fr.pure
  | n :: ns => by
    unfold checkTodo
    refine Keep.bind keepT_checkOne (fun b => ?_)
    split
    · refine Keep.bind ⟨fun W u W' h hp => ?_⟩ (fun _ => Keep.fr Fr.pure)
      rw [modify_iff] at h
      subst h
      refine Steady.of (b := W.book) (vs := (frame W).1) hp ?_ rfl
      unfold aview
      simp only
      rw [unmarkTodo_acon]
    · exact keepT_checkTodo

theorem keepT_modify {f : World → World} (h : ∀ W, aview (f W).book = aview W.book) (hm : ∀ W, mview (f W).book = mview W.book) : Keep (Steady K I M) (modify f) :=
  ⟨fun W u W' hx hk => by rw [modify_iff] at hx; subst hx; exact Steady.of (b := W.book) (vs := (frame W).1) hk (h W) (hm W)⟩

theorem keepT_checkLoop {ck : Bool} {level : Nat} : ∀ {n : Nat}, Keep (Steady K I M) (checkLoop cc ck level n)
  | 0 => ⟨fun W a W' h => by cases h⟩
  | n + 1 => by
    have ih := keepT_checkLoop (ck := ck) (level := level) (n := n)
    unfold checkLoop
    refine Keep.bind (keepS_integrateFacts (steady_stab (n := 0)).toStab) (fun b => ?_)
    split
    · exact Keep.fr Fr.pure
    refine Keep.bind keepT_deliver (fun _ => ?_)
    refine Keep.bind (Keep.fr Fr.get) (fun W => ?_)
    refine Keep.bind keepT_checkTodo (fun r => ?_)
    refine Keep.bind (keepT_modify (fun _ => rfl) (fun _ => rfl)) (fun _ => ?_)
    refine Keep.bind (Keep.fr Fr.get) (fun W => ?_)
    split
    · exact Keep.fr Fr.pure
    · exact ih

theorem keepT_solverCheck {ck : Bool} {n : Nat} : Keep (Steady K I M) (solverCheck cc ck n) := by
  unfold solverCheck
  refine Keep.bind (Keep.fr Fr.curLevel) (fun l => Keep.bind (Keep.fr Fr.get) (fun W => ?_))
  split
  · exact Keep.fr Fr.pure
  · exact keepT_checkLoop

theorem keepT_pushLevel {n : Nat} : Keep (Steady K I M) (pushLevel n) := by
  unfold pushLevel
  exact Keep.bind (Keep.fr Fr.curLevel) (fun l => Keep.whenS (keepT_modify (fun _ => rfl) (fun _ => rfl)))

theorem keepT_propagateLits : ∀ {ls : List Int}, Keep (Steady K I M) (propagateLits cc ls)
  | [] => Keep.fr Fr.pure
  | l :: ls => by
    unfold propagateLits propagateLit
    refine Keep.bind (Keep.bind (keepT_modify (fun W => markTodo_foldl_aview) (fun W => markTodos_mview)) (fun _ => keepS_updateDomain (steady_stab (n := 0)).toStab)) (fun b => ?_)
    split
    · exact Keep.fr Fr.pure
    · exact keepT_propagateLits

theorem keepT_solverPropagate {ls : List Int} : Keep (Steady K I M) (solverPropagate cc ls) := by
  unfold solverPropagate
  exact Keep.bind keepT_pushLevel (fun _ => keepT_propagateLits)

theorem keepT_factLoop {ck : Bool} {t : List SEv → List Int} {fuel : Nat} : ∀ {n : Nat}, Keep (Steady K I M) (factLoop cc t ck fuel n)
  | 0 => Keep.fr Fr.ub
  | n + 1 => by
    have ih := keepT_factLoop (ck := ck) (t := t) (fuel := fuel) (n := n)
    unfold factLoop
    refine Keep.bind (Keep.fr (by fr_auto)) (fun b => ?_)
    split
    · exact Keep.fr Fr.pure
    refine Keep.bind (Keep.fr (by fr_auto)) (fun W => ?_)
    dsimp only
    split
    · exact Keep.fr Fr.pure
    refine Keep.bind keepT_solverPropagate (fun b => ?_)
    split
    · exact Keep.fr Fr.pure
    refine Keep.bind (keepT_modify (fun _ => rfl) (fun _ => rfl)) (fun _ => ?_)
    refine Keep.bind keepT_solverCheck (fun b => ?_)
    split
    · exact Keep.fr Fr.pure
    · exact ih

theorem keepT_splitFirst : ∀ {vs : List Nat}, Keep (Steady K I M) (splitFirst cc vs)
  | [] => Keep.fr Fr.pure
  | v :: vs => by
    unfold splitFirst
    refine Keep.bind (Keep.fr fr_splitVar) (fun b => ?_)
    split
    · exact Keep.bind (keepT_modify (fun _ => rfl) (fun _ => rfl)) (fun _ => Keep.fr Fr.pure)
    · exact keepT_splitFirst

theorem keepT_solverCheckFull {b : Bool} : Keep (Steady K I M) (solverCheckFull cc b) := by
  unfold solverCheckFull
  refine Keep.bind (Keep.fr (by fr_auto)) (fun W => ?_)
  dsimp only
  refine Keep.bind ?_ (fun s => ?_)
  · split
    · exact Keep.fr fr_splitEach
    · exact keepT_splitFirst
  · exact Keep.fr (by fr_auto)

theorem keepT_updateBounds {os : List VarState} {b : Bool} {n : Nat} : Keep (Steady K I M) (updateBounds cc os b n) := by
  unfold Clingcon.updateBounds
  refine Keep.bind (Keep.fr fr_takeBounds) (fun b => ?_)
  split
  · exact Keep.fr Fr.pure
  · exact keepT_solverCheck

/-! ### What holds after `check` -/

theorem marks_todo_stab : Stab (fun F => Marks F.2.todo F) :=
  ⟨fun F F' hc ht h => by
    have e : F'.2.todo = F.2.todo := congrArg (fun p => p.2.1) hc
    show Marks F'.2.todo F'
    rw [e]
    exact (marks_stab (n := 0)).toStab.same F F' hc ht h⟩

theorem cov_stab : Stab (Cov f g) :=
  ⟨fun F F' hc ht h => by
    have e : F'.2.todo = F.2.todo := congrArg (fun p => p.2.1) hc
    refine ⟨?_, out_stab'.same F F' hc ht h.2⟩
    rw [e]
    exact (quiet_stab (n := 0)).toStab.same F F' hc ht h.1⟩

theorem checkOne_cov {ck r : Bool} {T0 : List Nat} (h : checkOne cc ck n W = .ok (r, W')) (hn : n ∈ T0) (hc : Chk L A T0 (frame W)) (hm : Marks (n :: T) (frame W)) :
    Marks T (frame W') ∧ (r = true → ¬ g 1 → Answers cc W W' true g → Rests f (n :: T) (frame W) → Out g allC (frame W) → Rests f T (frame W') ∧ Out g allC (frame W')) := by
  have hCh := hc
  unfold checkOne at h
  obtain ⟨c, W1, h1, h2⟩ := SM.bind_ok h
  obtain ⟨⟨hcs, hal⟩, rfl⟩ := getCS_iff.mp h1
  obtain ⟨_, W2, h3, h4⟩ := SM.bind_ok h2
  injection h3 with h3
  obtain ⟨-, e⟩ := Prod.mk.inj h3
  obtain ⟨f', W3, h5, h6⟩ := SM.bind_ok h4
  obtain ⟨rfl, rfl⟩ := qFalse_iff.mp h5
  have hl := (List.getElem?_eq_some_iff.mp hcs).1
  have hcs2 : W3.book.cs = W1.book.cs.set n { c with todo := false } := by rw [← e]
  have hin2 : W3.book.inactive = W1.book.inactive := by rw [← e]
  have hmb2 : W3.book.minimizeBound = W1.book.minimizeBound := by rw [← e]
  have hv2 : (frame W3).1 = (frame W1).1 := by rw [← e]; rfl
  have hlog : W3.log = W1.log := by rw [← e]
  have get2 : ∀ (m : Nat) c', W3.book.cs[m]? = some c' → ∃ c0, W1.book.cs[m]? = some c0 ∧ c'.alive = c0.alive ∧ c'.con = c0.con ∧ c'.lower = c0.lower ∧ c'.upper = c0.upper ∧
      c'.inactive = c0.inactive ∧ (c'.todo = true → c0.todo = true ∧ m ≠ n) := by
    intro m c' hc'
    rw [hcs2] at hc'
    by_cases hmn : n = m
    · subst hmn
      rw [List.getElem?_set_self hl] at hc'
      injection hc' with hc'
      subst hc'
      exact ⟨c, hcs, rfl, rfl, rfl, rfl, rfl, fun h => by cases h⟩
    · rw [List.getElem?_set_ne hmn] at hc'
      exact ⟨c', hc', rfl, rfl, rfl, rfl, rfl, fun h => ⟨h, fun e => hmn e.symm⟩⟩
  have m2 : Marks T (frame W3) := by
    refine ⟨fun m c' hc' ht => ?_, fun m c' hc' hi => ?_⟩
    · obtain ⟨c0, a1, -, -, -, -, -, a7⟩ := get2 m c' hc'
      obtain ⟨b1, b2⟩ := a7 ht
      exact (List.mem_cons.mp (hm.1 m c0 a1 b1)).resolve_left b2
    · obtain ⟨c0, a1, -, -, -, -, a6, -⟩ := get2 m c' hc'
      show m ∈ W3.book.inactive
      rw [hin2]
      exact hm.2 m c0 a1 (a6 ▸ hi)
  have q2 : Rests f (n :: T) (frame W1) → Rests f (n :: T) (frame W3) := by
    intro hq m c' hc' h1 h2 h3
    obtain ⟨c0, a1, a2, a3, a4, a5, -⟩ := get2 m c' hc'
    have h3 : m ∉ W3.book.inactive := h3
    rw [hin2] at h3
    exact (hq m c0 a1 (a2 ▸ h1) h2 h3).congr hmb2 a3 a4 (Int.le_of_eq a5)
  have o2 : Out g allC (frame W1) → Out g allC (frame W3) := by
    intro ho
    refine ho.view hv2 ?_
    show aview W3.book = aview W1.book
    rw [← e]
    exact aview_set (c' := { c with todo := false }) hcs rfl
  have k2 : ∀ c', W3.book.cs[n]? = some c' → c'.alive = true → Counted c' (loF (frame W3)) (upF (frame W3)) := by
    intro c' hc' _
    rw [hcs2, List.getElem?_set_self hl] at hc'
    injection hc' with hc'
    subst hc'
    have := hCh.counted hn (c := c) hcs hal
    have e3 : loF (frame W3) = loF (frame W1) := by unfold loF; rw [hv2]
    have e4 : upF (frame W3) = upF (frame W1) := by unfold upF; rw [hv2]
    rw [e3, e4]
    exact Counted.same (c := c) (c' := { c with todo := false }) ⟨rfl, rfl, rfl, rfl, rfl, rfl, rfl, rfl, .refl _, id⟩ this
  cases hf : cc.isFalse W3.log c.con.lit with
  | false =>
    rw [hf] at h6
    have h6 : propagateCS cc ck n W3 = .ok (r, W') := h6
    refine ⟨(keepS_propagateCS marks_stab).keep _ _ _ h6 m2, fun hr g1 ans hq ho => ?_⟩
    subst hr
    exact propagateCS_cov h6 g1 ⟨ans.mono, fun log l a b => ans.isFalse log l (hlog ▸ a) b, fun a new b => ans.units a new (hlog ▸ b)⟩ k2 m2 (q2 hq) (o2 ho)
  | true =>
    rw [hf] at h6
    have h6 : (markInactiveS n >>= fun _ => Pure.pure true) W3 = .ok (r, W') := h6
    obtain ⟨u, W4, h7, h8⟩ := SM.bind_ok h6
    obtain ⟨rfl, rfl⟩ := pure_iff.mp h8
    refine ⟨(keepS_markInactiveS marks_stab).keep _ _ _ h7 m2, fun _ g1 ans hq ho => ?_⟩
    have hg : g c.con.lit := ans.isFalse W3.log _ (by rw [hlog]) (suffix_of (m := true) (ext_markInactiveS.ext _ _ _ h7)) hf
    have hq' : Rests f (n :: T) (frame W') := (keepS_markInactiveS quiet_stab).keep _ _ _ h7 (q2 hq)
    have ho' : Out g (· ≠ n) (frame W') := (keepS_markInactiveS (out_stab (by simp))).keep _ _ _ h7 (o2 ho).but
    have hs := (keepS_markInactiveS (steady_stab (K := W3.book.cs.map acon) (I := W3.book.inactive) (M := (W3.book.minimizeBound, W3.book.minimizeLevel)))).keep _ _ _ h7
      ⟨rfl, List.prefix_refl _, rfl⟩
    have con' : ∀ c', W'.book.cs[n]? = some c' → c'.con = c.con := by
      intro c' hc'
      obtain ⟨c0, h4, -, h5⟩ := acon_get hs.1 hc'
      obtain ⟨c1, h6, -, h7, -⟩ := get2 n c0 h4
      rw [hcs] at h6; injection h6 with h6; subst h6
      exact h5.trans h7
    have asd : (∀ a es, c.con ≠ .minimize a es) → Asd g n (frame W') := by
      intro hne c' h4 h5
      rw [con' c' h4]
      cases hcon : c.con with
      | sum l r es => rw [hcon] at hg; exact Or.inr hg
      | minimize a es => exact absurd hcon (hne a es)
      | distinct l es => trivial
      | disjoint l es => trivial
      | nonlinear l ca x y cb z r => trivial
    cases hcon : c.con with
    | minimize a es => rw [hcon] at hg; exact absurd hg g1
    | sum l r es =>
      have hrem : ({ c with todo := false } : CState).removable = true := by unfold CState.removable; dsimp only; rw [hcon]
      have hin := markInactiveS_mem h7 m2 (c := { c with todo := false }) (by rw [hcs2, List.getElem?_set_self hl]) hrem
      exact ⟨hq'.finish (fun _ _ _ hni => absurd hin hni), ho'.finish (fun _ => asd (by intro a es e; rw [hcon] at e; cases e))⟩
    | distinct l es =>
      exact ⟨hq'.finish (fun c' h4 _ _ => by unfold Low; rw [con' c' h4, hcon]; trivial), ho'.finish (fun _ => asd (by intro a es e; rw [hcon] at e; cases e))⟩
    | disjoint l es =>
      exact ⟨hq'.finish (fun c' h4 _ _ => by unfold Low; rw [con' c' h4, hcon]; trivial), ho'.finish (fun _ => asd (by intro a es e; rw [hcon] at e; cases e))⟩
    | nonlinear l ca x y cb z r =>
      exact ⟨hq'.finish (fun c' h4 _ _ => by unfold Low; rw [con' c' h4, hcon]; trivial), ho'.finish (fun _ => asd (by intro a es e; rw [hcon] at e; cases e))⟩

theorem checkTodo_cov {ck : Bool} {T0 : List Nat} : ∀ {ns : List Nat} {W W' : World} {r : Bool}, checkTodo cc ck ns W = .ok (r, W') → (∀ n ∈ ns, n ∈ T0) →
    Chk L A T0 (frame W) → Marks ns (frame W) →
    Marks [] (frame W') ∧ (r = true → ¬ g 1 → Answers cc W W' true g → Rests f ns (frame W) → Out g allC (frame W) → Rests f [] (frame W') ∧ Out g allC (frame W'))
  | [], W, W', r, h, hn, hc, hm => by
    unfold checkTodo at h
    obtain ⟨rfl, rfl⟩ := pure_iff.mp h
    exact ⟨hm, fun _ _ _ hq ho => ⟨hq, ho⟩⟩
  | n :: ns, W, W', r, h, hn, hc, hm => by
    unfold checkTodo at h
    obtain ⟨b, W1, h1, h2⟩ := SM.bind_ok h
    obtain ⟨m1, k1⟩ := checkOne_cov (f := f) (g := g) h1 (hn n (List.mem_cons_self ..)) hc hm
    have c1 := (keepC_checkOne (hn n (List.mem_cons_self ..))).keep _ _ _ h1 hc
    cases b with
    | false =>
      have h2 : ((modify (fun W => { W with book.cs := Book.unmarkTodo W.book.cs ns }) : SM Unit) >>= fun _ => Pure.pure false) W1 = .ok (r, W') := h2
      obtain ⟨u, W2, h3, h4⟩ := SM.bind_ok h2
      rw [modify_iff] at h3
      subst h3
      obtain ⟨rfl, rfl⟩ := pure_iff.mp h4
      refine ⟨⟨fun m c' hc' ht => ?_, fun m c' hc' hi => ?_⟩, fun h => by cases h⟩
      · have hc' : (Book.unmarkTodo W1.book.cs ns)[m]? = some c' := hc'
        rw [unmarkTodo_get] at hc'
        cases h5 : W1.book.cs[m]? with
        | none => rw [h5] at hc'; cases hc'
        | some c =>
          rw [h5] at hc'
          simp only [Option.map_some, Option.some.injEq] at hc'
          split_ifs at hc' with hmem
          · subst hc'; cases ht
          · subst hc'; exact absurd (m1.1 m c h5 ht) hmem
      · have hc' : (Book.unmarkTodo W1.book.cs ns)[m]? = some c' := hc'
        rw [unmarkTodo_get] at hc'
        cases h5 : W1.book.cs[m]? with
        | none => rw [h5] at hc'; cases hc'
        | some c =>
          rw [h5] at hc'
          simp only [Option.map_some, Option.some.injEq] at hc'
          refine m1.2 m c h5 ?_
          split_ifs at hc' with hmem <;> (subst hc'; exact hi)
    | true =>
      have h2 : checkTodo cc ck ns W1 = .ok (r, W') := h2
      obtain ⟨m2, k2⟩ := checkTodo_cov (ck := ck) h2 (fun k hk => hn k (List.mem_cons_of_mem _ hk)) c1 m1
      refine ⟨m2, fun hr g1 ans hq ho => ?_⟩
      have w1 : Grow true W W1 := ext_checkOne.ext _ _ _ h1
      have w2 : Grow true W1 W' := ext_checkTodo.ext _ _ _ h2
      obtain ⟨q1, o1⟩ := k1 rfl g1 (Answers.mid ans (Grow.refl true W) w1 w2) hq ho
      exact k2 hr g1 (Answers.mid ans w1 w2 (Grow.refl true W')) q1 o1

theorem checkLoop_cov {ck : Bool} {l : Lvl} {ls : List Lvl} : ∀ {n : Nat} {W W' : World} {r : Bool}, checkLoop cc ck l.level n W = .ok (r, W') →
    At (l :: ls) A (frame W) → Marks W.book.todo (frame W) →
    Marks W'.book.todo (frame W') ∧ (r = true → ¬ g 1 → Answers cc W W' true g → Cov f g (frame W) → Cov f g (frame W'))
  | 0, W, W', r, h, _, _ => by cases h
  | n + 1, W, W', r, h, ha, hm => by
    unfold checkLoop at h
    obtain ⟨b, W1, h1, h2⟩ := SM.bind_ok h
    have a1 := keep_integrateFacts.keep _ _ _ h1 ha
    have m1 : Marks W1.book.todo (frame W1) := (keepS_integrateFacts marks_todo_stab).keep _ _ _ h1 hm
    have w1 : Grow false W W1 := ext_integrateFacts.ext _ _ _ h1
    split at h2
    · obtain ⟨rfl, rfl⟩ := pure_iff.mp h2
      exact ⟨m1, fun h => by cases h⟩
    obtain ⟨_, W2, h3, h4⟩ := SM.bind_ok h2
    obtain ⟨a2, q2⟩ := deliver_eff h3 a1
    have w2 : Grow false W1 W2 := ext_deliver.ext _ _ _ h3
    obtain ⟨m2, k2⟩ := deliver_cov (f := f) (g := g) h3 m1
    obtain ⟨W2', W3, h5, h6⟩ := SM.bind_ok h4
    obtain ⟨rfl, rfl⟩ := get_iff.mp h5
    obtain ⟨ret, W4, h7, h8⟩ := SM.bind_ok h6
    have c4 : Chk (l :: ls) A W3.book.todo (frame W4) := (keepC_checkTodo (fun _ h => h)).keep _ _ _ h7 ⟨a2, q2, rfl⟩
    have w4 : Grow false W3 W4 := ext_checkTodo.ext _ _ _ h7
    obtain ⟨m4, k4⟩ := checkTodo_cov (f := f) (g := g) h7 (fun _ h => h) ⟨a2, q2, rfl⟩ m2
    obtain ⟨_, W5, h9, h10⟩ := SM.bind_ok h8
    rw [modify_iff] at h9
    subst h9
    have a5 : At (l :: ls) A (frame { W4 with book.todo := [] }) := by
      refine c4.at.book ?_ rfl rfl
      exact c4.at.bi.setAll (vs := (frame W4).1) (b := W4.book) (cs' := W4.book.cs) (todo' := []) rfl
        (fun n c hc => ⟨c, hc, rfl, fun h => ⟨h, id⟩⟩) (by simp)
    have m5 : Marks [] (frame { W4 with book.todo := [] }) := m4
    have w5 : Grow false W4 { W4 with book.todo := [] } := Grow.same rfl rfl
    have k5 : ∀ {W'}, ret = true → ¬ g 1 → Grow false W4 W' → Answers cc W W' true g → Cov f g (frame W) → Cov f g (frame { W4 with book.todo := [] }) := by
      intro W' hr g1 hw ans hcov
      have v1 : Cov f g (frame W1) := (keepS_integrateFacts cov_stab).keep _ _ _ h1 hcov
      obtain ⟨x1, x2⟩ := k4 hr g1 (Answers.mid ans (w1.trans w2) w4 hw) (k2 v1).1 (k2 v1).2
      exact ⟨x1, x2⟩
    obtain ⟨W6, W7, h11, h12⟩ := SM.bind_ok h10
    obtain ⟨rfl, rfl⟩ := get_iff.mp h11
    split at h12
    · obtain ⟨rfl, rfl⟩ := pure_iff.mp h12
      exact ⟨m5, fun hr g1 ans hcov => k5 hr g1 w5 ans hcov⟩
    · rename_i hret
      have hret : ret = true := by
        cases ret with
        | true => rfl
        | false => simp at hret
      obtain ⟨m6, k6⟩ := checkLoop_cov (n := n) h12 a5 m5
      have w6 : Grow false { W4 with book.todo := [] } W' := ext_checkLoop.ext _ _ _ h12
      refine ⟨m6, fun hr g1 ans hcov => ?_⟩
      exact k6 hr g1 (Answers.mid ans (((w1.trans w2).trans w4).trans w5) w6 (Grow.refl false W')) (k5 hret g1 (w5.trans w6) ans hcov)

end Clingcon
