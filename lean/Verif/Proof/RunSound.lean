import Verif.Proof.Kons
import Verif.Proof.Nonlinear
import Verif.Proof.Distinct
import Verif.Proof.Sum
import Verif.Spec.Runs
import Verif.Proof.Justify

/-! Everything derived over a sequence of calls is sound. -/
set_option linter.unusedSimpArgs false
set_option linter.unusedVariables false
namespace Clingcon
open Spec VarState

variable {β : Nat → Bool} {σ : Nat → Int} {α γ : Type} {m : Bool} {W W' : World} {cc : CC} {K : List Constr × Option Int}
  {L : List Lvl} {A : (Nat → Nat → Int) × (Nat → Nat → Int) × Nat} {T : List Nat} {J : World → Prop}

theorem ext_checkOne {ck : Bool} {n : Nat} : Ext' m (checkOne cc ck n) := by unfold checkOne; ext_auto
macro_rules | `(tactic| ext_step) => `(tactic| with_reducible exact ext_checkOne)
theorem ext_checkTodo {ck : Bool} : ∀ {ns : List Nat}, Ext' m (checkTodo cc ck ns)
  | [] => by unfold checkTodo; ext_auto
  | n :: ns => by
    have ih := ext_checkTodo (ck := ck) (ns := ns)
    unfold checkTodo; ext_auto

theorem ext_deliver {n : Nat} : Ext' m (deliver n) := ⟨fun W a W' h => by
  obtain ⟨b, rfl, -⟩ := deliver_only h
  exact Grow.same rfl rfl⟩
theorem ext_integrateFacts : Ext' false (integrateFacts cc) := by
  unfold integrateFacts; ext_auto
theorem ext_checkLoop {ck : Bool} {lv : Nat} : ∀ {n : Nat}, Ext' false (checkLoop cc ck lv n)
  | 0 => by unfold checkLoop; ext_auto
  | n + 1 => by
    have ih := ext_checkLoop (ck := ck) (lv := lv) (n := n)
    have h1 : ∀ n, Ext' false (deliver n) := fun n => ext_deliver
    have h2 : Ext' false (integrateFacts cc) := ext_integrateFacts
    have h3 : ∀ ns, Ext' false (checkTodo cc ck ns) := fun ns => ext_checkTodo
    unfold checkLoop
    repeat (any_goals (first | with_reducible exact ih | with_reducible exact h1 _ | with_reducible exact h2 | with_reducible exact h3 _ | ext_step))
theorem ext_takeUpper {v : Nat} {o : VarState} : Ext' m (takeUpper cc v o) := by unfold takeUpper; ext_auto
theorem ext_takeLower {v : Nat} {o : VarState} : Ext' m (takeLower cc v o) := by unfold takeLower; ext_auto
theorem ext_takeBounds : ∀ {os : List VarState} {v : Nat}, Ext' m (takeBounds cc v os)
  | [], _ => by unfold takeBounds; ext_auto
  | o :: os, v => by
    have ih := ext_takeBounds (os := os) (v := v + 1)
    have h1 := @ext_takeUpper m cc v o
    have h2 := @ext_takeLower m cc v o
    unfold takeBounds; ext_auto

theorem Keep.and {P R : List VarState × Book → Prop} {x : SM α} (h1 : Keep P x) (h2 : Keep R x) : Keep (fun F => P F ∧ R F) x :=
  ⟨fun W a W' h hp => ⟨h1.keep _ _ _ h hp.1, h2.keep _ _ _ h hp.2⟩⟩

theorem Tr.keep {P : World → Prop} {R : List VarState × Book → Prop} {x : SM α} {Q : α → World → Prop} (hk : Keep R x)
    (h : Tr β σ m (fun W => P W ∧ R (frame W)) x Q) : Tr β σ m (fun W => P W ∧ R (frame W)) x (fun a W => Q a W ∧ R (frame W)) := by
  intro W a W' hx
  obtain ⟨g, q⟩ := h _ _ _ hx
  exact ⟨g, fun hp ha => ⟨q hp ha, hk.keep _ _ _ hx hp.2⟩⟩

/-- The constraints admit the assignment. -/
def Adm (β : Nat → Bool) (σ : Nat → Int) (K : List Constr × Option Int) : Prop := ∀ c ∈ K.1, admits β σ K.2 c

theorem Tr.keepJ {P : World → Prop} {x : SM α} {Q : α → World → Prop} (hk : Kw J x)
    (h : Tr β σ m P x Q) : Tr β σ m (fun W => P W ∧ J W) x (fun a W => Q a W ∧ J W) := by
  intro W a W' hx
  obtain ⟨g, q⟩ := h _ _ _ hx
  exact ⟨g, fun hp ha => ⟨q hp.1 ha, hk.kw _ _ _ hx hp.2⟩⟩

/-- Fixed literals of distinct and disjoint constraints are true. -/
def FixedOK (cc : CC) (β : Nat → Bool) (K : List Constr × Option Int) : Prop :=
  ∀ l, (∃ es, Constr.distinct l es ∈ K.1) ∨ (∃ es, Constr.disjoint l es ∈ K.1) → ∀ log, AllHold β log → cc.isFixed log l = true → litTrue β l

theorem wsum_valSum {es : List (Int × Nat)} : valSum σ es = wsum σ es := by
  unfold valSum
  induction es with
  | nil => rfl
  | cons e es ih =>
    unfold sumExcept
    rw [ih, if_neg (by simp)]
    rfl

theorem lowSum_bnd {F : List VarState × Book} {es : List (Int × Nat)} : lowSum (loF F) (upF F) es = bndSum F es := by
  unfold bndSum
  induction es with
  | nil => rfl
  | cons e es ih =>
    unfold sumExcept lowSum
    rw [ih]
    simp [bndF]

theorem sum_sound {ck tagged r : Bool} {n : Nat} {clit rhs : Int} {es : List (Int × Nat)} {c : CState} (he : EnvSound cc β) (hv : EnvMono cc) (hi : Inv β σ W)
    (hcs : W.book.cs[n]? = some c) (hl : c.lower = lowSum (loF (frame W)) (upF (frame W)) es) (h0 : clit ≠ 0) (hnd : (es.map (·.2)).Nodup)
    (hs : litTrue β clit → wsum σ es ≤ rhs) (h : sumPropagate cc n ck tagged clit rhs es W = .ok (r, W')) (hr : Asm β σ false W') : Inv β σ W' := by
  refine ((tr_sumPropagate (F := frame W) he hv h0 (fun ht => by rw [wsum_valSum]; exact hs ht) hnd (fun c' hc' => ?_) W r W' h).2 ⟨hi, rfl⟩ hr).1
  have : W.book.cs[n]? = some c' := hc'
  rw [hcs] at this
  injection this with this
  subst this
  rw [hl, lowSum_bnd]

theorem propagateCS_sound {ck r : Bool} {n : Nat} (he : EnvSound cc β) (hv : EnvMono cc) (hi : Inv β σ W) (hsd : Side cc K L J) (hJ : J W) (hk : Kons K (frame W)) (ha : Adm β σ K)
    (hfx : FixedOK cc β K) (hc : Chk L A T (frame W)) (hn : n ∈ T) (h : propagateCS cc ck n W = .ok (r, W')) (hr : Asm β σ false W') : Inv β σ W' := by
  unfold propagateCS at h
  obtain ⟨c, W1, h1, h2⟩ := SM.bind_ok h
  obtain ⟨⟨hcs, hal⟩, rfl⟩ := getCS_iff.mp h1
  have hct := hc.counted hn (c := c) hcs hal
  have hmem : c.con ∈ K.1 := by rw [← hk]; exact konsB_get hcs
  have had := ha _ hmem
  have hb : W1.book.minimizeBound = K.2 := congrArg Prod.snd hk
  cases hcon : c.con with
  | sum l rhs es =>
    rw [hcon] at h2 had
    unfold Counted Mid at hct
    rw [hcon] at hct
    obtain ⟨a1, a2, a3⟩ := had
    exact sum_sound he hv hi hcs (by simpa [signSum] using hct.1) a1 a2 a3 h2 hr
  | minimize a es =>
    rw [hcon] at h2 had
    unfold Counted Mid at hct
    rw [hcon] at hct
    obtain ⟨a1, a2⟩ := had
    obtain ⟨W2, W3, h3, h4⟩ := SM.bind_ok h2
    obtain ⟨rfl, rfl⟩ := get_iff.mp h3
    obtain ⟨o, W4, h5, h6⟩ := SM.bind_ok h4
    obtain ⟨h5, rfl⟩ := liftRes_iff.mp h5
    cases o with
    | none => obtain ⟨-, rfl⟩ := pure_iff.mp h6; exact hi
    | some rhs =>
      refine sum_sound he hv hi hcs (by simpa [signSum] using hct.1) (by decide) a1 (fun _ => a2 rhs ?_) h6 hr
      unfold minimizeRhs at h5
      rw [hb] at h5
      cases hk2 : K.2 with
      | none => rw [hk2] at h5; cases h5
      | some b =>
        rw [hk2] at h5
        dsimp only at h5
        split_ifs at h5
        injection h5 with h5
  | distinct l es =>
    rw [hcon] at h2 had hmem
    exact distinctPropagate_sound he had.1 hi (fun new h3 h4 => hfx _ (Or.inl ⟨_, hmem⟩) _ h3 h4) had.2
      (fun c' hc' => by rw [hcs] at hc'; injection hc' with hc'; subst hc'; exact ⟨hcon, hct⟩) h2 hr
  | nonlinear l ca x y cb z rhs =>
    rw [hcon] at h2 had
    exact (tr_nonlinearPropagate (F := frame W1) he (fun h => absurd had.2 (by omega)) had.1 W1 r W' h2).2 ⟨hi, rfl⟩ hr
  | disjoint l es =>
    rw [hcon] at h2 had hmem
    unfold Counted Mid at hct
    rw [hcon] at hct
    obtain ⟨hn, hb⟩ := hsd.just l es hmem W1 hJ hc.at.bi hc.at.lev
    exact disjointPropagate_sound he hv had.1 hi hn hb (fun new h3 h4 => hfx _ (Or.inr ⟨_, hmem⟩) _ h3 h4) had.2.1 had.2.2
      (fun c' hc' => by rw [hcs] at hc'; injection hc' with hc'; subst hc'; exact hct) h2 hr

theorem Inv.cs {n : Nat} {c : CState} (h : Inv β σ W) : Inv β σ { W with book.cs := W.book.cs.set n c } := h.book _

/-- The state during a check. -/
abbrev CkP (J : World → Prop) (β : Nat → Bool) (σ : Nat → Int) (K : List Constr × Option Int) (L : List Lvl) (A : (Nat → Nat → Int) × (Nat → Nat → Int) × Nat) (T : List Nat) (W : World) : Prop :=
  (Inv β σ W ∧ J W) ∧ (Kons K (frame W) ∧ Chk L A T (frame W))

theorem tr_checkOne {ck : Bool} {n : Nat} (he : EnvSound cc β) (hv : EnvMono cc) (ha : Adm β σ K) (hfx : FixedOK cc β K) (hsd : Side cc K L J) (hn : n ∈ T) :
    Tr β σ false (CkP J β σ K L A T) (checkOne cc ck n) (fun _ W => CkP J β σ K L A T W) := by
  refine Tr.keep (R := fun F => Kons K F ∧ Chk L A T F) (Keep.and keepK_checkOne (keepC_checkOne hn)) ?_
  intro W r W' h
  refine ⟨ext_checkOne.ext _ _ _ h, ?_⟩
  rintro ⟨⟨hi, hJ⟩, hk, hc⟩ hr
  refine ⟨?_, (hsd.kw ext_checkOne (fun P hP => kw_checkOne hP)).kw _ _ _ h hJ⟩
  unfold checkOne at h
  obtain ⟨c, W1, h1, h2⟩ := SM.bind_ok h
  obtain ⟨⟨hcs, hal⟩, rfl⟩ := getCS_iff.mp h1
  obtain ⟨u, W2, h3, h4⟩ := SM.bind_ok h2
  rw [setCS_iff] at h3
  have k2 : Kons K (frame W2) := by
    rw [h3, ← hk]
    exact Prod.ext (map_con_set hcs rfl) rfl
  have c2 : Chk L A T (frame W2) := by
    rw [h3]
    exact hc.set hcs (c' := { c with todo := false }) rfl (fun h => ⟨h, fun ht => Tracked.same (c := c) (c' := { c with todo := false }) (SameV.refl _) ⟨rfl, rfl, rfl⟩ ⟨rfl, rfl, rfl, rfl, rfl, rfl, rfl, rfl, .refl _, id⟩ ht⟩) rfl
  have i2 : Inv β σ W2 := by rw [h3]; exact hi.book _
  have j2 : J W2 := by rw [h3]; exact hsd.book _ _ hJ
  obtain ⟨f, W3, h5, h6⟩ := SM.bind_ok h4
  obtain ⟨-, rfl⟩ := qFalse_iff.mp h5
  split at h6
  · exact propagateCS_sound he hv i2 hsd j2 k2 ha hfx c2 hn h6 hr
  · obtain ⟨u', W4, h7, h8⟩ := SM.bind_ok h6
    obtain ⟨-, rfl⟩ := pure_iff.mp h8
    unfold markInactiveS at h7
    obtain ⟨l, W5, h9, h10⟩ := SM.bind_ok h7
    obtain ⟨-, rfl⟩ := curLevel_iff.mp h9
    rw [modify_iff] at h10
    subst h10
    exact i2.book _

theorem tr_checkTodo {ck : Bool} (he : EnvSound cc β) (hv : EnvMono cc) (ha : Adm β σ K) (hfx : FixedOK cc β K) (hsd : Side cc K L J) : ∀ {ns : List Nat}, (∀ n ∈ ns, n ∈ T) →
    Tr β σ false (CkP J β σ K L A T) (checkTodo cc ck ns) (fun _ W => CkP J β σ K L A T W)
  | [], _ => Tr.pure (fun _ h => h)
  | n :: ns, hns => by
    refine Tr.keep (R := fun F => Kons K F ∧ Chk L A T F) (Keep.and keepK_checkTodo (keepC_checkTodo hns)) ?_
    unfold checkTodo
    refine Tr.bind (tr_checkOne he hv ha hfx hsd (hns n (List.mem_cons_self ..))) (fun b => ?_)
    split
    · refine Tr.bind (Q := fun _ W => Inv β σ W ∧ J W) (Tr.modify (fun _ => Grow.same rfl rfl) (fun W hW _ => ⟨hW.1.1.book _, hsd.book _ _ hW.1.2⟩)) (fun _ => Tr.pure (fun _ h => h))
    · exact (tr_checkTodo he hv ha hfx hsd (fun m hm => hns m (List.mem_cons_of_mem _ hm))).post (fun _ _ h => h.1)

theorem tr_integrateFacts (he : EnvSound cc β) : Tr β σ false (InvL β σ L) (integrateFacts cc) (fun _ W => InvL β σ L W) := by
  unfold integrateFacts
  refine Tr.bind (Q := fun _ => InvL β σ L) (tr_read (fun _ _ _ h => (get_iff.mp h).2)) (fun W => ?_)
  refine Tr.ite (fun _ => Tr.pure (fun _ h => h)) (fun _ => ?_)
  refine Tr.bind (Q := fun _ W => InvL β σ L W ∧ cc.level = 0) (Tr.assertS (fun h W hW => ⟨hW, by simpa using h⟩)) (fun _ => Tr.assume (by ext_auto) (fun h0 => ?_))
  exact tr_updateDomain he (by decide) (fun _ _ _ => h0)

theorem tr_deliver {level : Nat} : Tr β σ false (Inv β σ) (deliver level) (fun _ W => Inv β σ W) := by
  intro W u W' h
  obtain ⟨b, rfl, -⟩ := deliver_only h
  exact ⟨Grow.same rfl rfl, fun hi _ => hi.book b⟩

/-- The state around a check. -/
abbrev AtP (J : World → Prop) (β : Nat → Bool) (σ : Nat → Int) (K : List Constr × Option Int) (L : List Lvl) (A : (Nat → Nat → Int) × (Nat → Nat → Int) × Nat) (W : World) : Prop :=
  (Inv β σ W ∧ J W) ∧ (Kons K (frame W) ∧ At L A (frame W))

theorem tr_checkLoop {ck : Bool} {l : Lvl} {ls : List Lvl} (he : EnvSound cc β) (hv : EnvMono cc) (ha : Adm β σ K) (hfx : FixedOK cc β K) (hsd : Side cc K (l :: ls) J) : ∀ {n : Nat},
    Tr β σ false (AtP J β σ K (l :: ls) A) (checkLoop cc ck l.level n) (fun _ W => AtP J β σ K (l :: ls) A W)
  | 0 => Tr.ub
  | n + 1 => by
    have ih := tr_checkLoop (ck := ck) (l := l) (ls := ls) he hv ha hfx hsd (n := n)
    unfold checkLoop
    refine Tr.bind (Q := fun _ W => AtP J β σ K (l :: ls) A W) ?_ (fun b => ?_)
    · refine Tr.keep (Keep.and keepK_integrateFacts keep_integrateFacts) ?_
      intro W b W' h
      obtain ⟨g, q⟩ := tr_integrateFacts (L := l :: ls) he W b W' h
      exact ⟨g, fun hp hr => ⟨(q ⟨hp.1.1, hp.2.2.lev⟩ hr).1, hsd.integ.kw _ _ _ h hp.1.2⟩⟩
    split
    · exact Tr.pure (fun _ h => h)
    refine Tr.bind (Q := fun _ W => (Inv β σ W ∧ J W) ∧ (Kons K (frame W) ∧ Chk (l :: ls) A W.book.todo (frame W))) ?_ (fun _ => ?_)
    · intro W u W' h
      obtain ⟨g, q⟩ := tr_deliver (β := β) (σ := σ) W u W' h
      refine ⟨g, fun hp hr => ⟨⟨q hp.1.1 hr, (hsd.kw ext_deliver (fun P hP => kw_deliver hP)).kw _ _ _ h hp.1.2⟩, keepK_deliver.keep _ _ _ h hp.2.1, ?_⟩⟩
      obtain ⟨a2, q2⟩ := deliver_eff h hp.2.2
      exact ⟨a2, q2, rfl⟩
    refine Tr.bind (Q := fun W1 W => CkP J β σ K (l :: ls) A W1.book.todo W) (Tr.get (fun W hW => hW)) (fun W1 => ?_)
    refine Tr.bind (tr_checkTodo he hv ha hfx hsd (fun _ h => h)) (fun r => ?_)
    refine Tr.bind (Q := fun _ W => AtP J β σ K (l :: ls) A W) (Tr.modify (fun _ => Grow.same rfl rfl) (fun W hW _ => ⟨⟨hW.1.1.book _, hsd.book _ _ hW.1.2⟩, hW.2.1, ?_⟩)) (fun _ => ?_)
    · refine hW.2.2.at.book ?_ rfl rfl
      exact hW.2.2.at.bi.setAll (vs := (frame W).1) (b := W.book) (cs' := W.book.cs) (todo' := []) rfl
        (fun n c hc => ⟨c, hc, rfl, fun h => ⟨h, id⟩⟩) (by simp)
    refine Tr.bind (Q := fun _ W => AtP J β σ K (l :: ls) A W) (Tr.get (fun W hW => hW)) (fun W2 => ?_)
    split
    · exact Tr.pure (fun _ h => h)
    · exact ih

theorem tr_solverCheck {ck : Bool} {n : Nat} (he : EnvSound cc β) (hv : EnvMono cc) (ha : Adm β σ K) (hfx : FixedOK cc β K) (hsd : Side cc K L J) :
    Tr β σ false (AtP J β σ K L A) (solverCheck cc ck n) (fun _ W => AtP J β σ K L A W) := by
  unfold solverCheck
  cases L with
  | nil =>
    refine Tr.bind (Q := fun _ _ => False) ?_ (fun l => ?_)
    · intro W l W' h
      obtain ⟨h1, rfl⟩ := curLevel_iff.mp h
      refine ⟨Grow.refl _ _, fun hp _ => ?_⟩
      have : W'.book.levels = [] := hp.2.2.lev
      rw [this] at h1; cases h1
    · have hx : Ext' false (do
        let W ← get
        if cc.level ≠ l.level ∧ l.level ≥ W.book.minimizeLevel then return true
        else checkLoop cc ck l.level n : SM Bool) := by
        refine Ext'.bind ext_get (fun W => ?_)
        split
        · exact Ext'.pure
        · exact ext_checkLoop
      exact fun W a W' h => ⟨hx.ext _ _ _ h, fun hf => hf.elim⟩
  | cons l ls =>
    refine Tr.bind (Q := fun l' W => AtP J β σ K (l :: ls) A W ∧ l' = l) ?_ (fun l' => ?_)
    · intro W l' W' h
      obtain ⟨h1, rfl⟩ := curLevel_iff.mp h
      refine ⟨Grow.refl _ _, fun hp _ => ⟨hp, ?_⟩⟩
      have : W'.book.levels = _ := hp.2.2.lev
      rw [this] at h1; injection h1 with h1; exact h1.symm
    · refine Tr.assume ?_ (fun e => ?_)
      · refine Ext'.bind ext_get (fun W => ?_)
        split
        · exact Ext'.pure
        · exact ext_checkLoop
      subst e
      refine Tr.bind (Q := fun _ W => AtP J β σ K (l' :: ls) A W) (Tr.get (fun W hW => hW)) (fun W2 => ?_)
      split
      · exact Tr.pure (fun _ h => h)
      · exact tr_checkLoop he hv ha hfx hsd

/-! ### Propagation of literals and simplification -/

theorem tr_propagateLit {l : Int} (he : EnvSound cc β) (hl : l ≠ 0) (hlev : ∀ x, L.head? = some x → x.level = 0 → cc.level = 0) :
    Tr β σ false (InvL β σ L) (propagateLit cc l) (fun _ W => InvL β σ L W) := by
  unfold propagateLit
  refine Tr.bind (Q := fun _ => InvL β σ L) (Tr.modify (fun _ => Grow.same rfl rfl) (fun W hW _ => ⟨hW.1.book _, ?_⟩)) (fun _ => tr_updateDomain he hl hlev)
  have := (markTodos_eff (W.book.consOf l) W.book).rest
  rw [this]
  exact hW.2

theorem tr_propagateLits (he : EnvSound cc β) (hlev : ∀ x, L.head? = some x → x.level = 0 → cc.level = 0) : ∀ {ls : List Int}, (∀ l ∈ ls, l ≠ 0) →
    Tr β σ false (InvL β σ L) (propagateLits cc ls) (fun _ W => InvL β σ L W)
  | [], _ => Tr.pure (fun _ h => h)
  | l :: ls, hl => by
    unfold propagateLits
    refine Tr.bind (tr_propagateLit he (hl l (List.mem_cons_self ..)) hlev) (fun b => ?_)
    split
    · exact Tr.pure (fun _ h => h)
    · exact tr_propagateLits he hlev (fun x hx => hl x (List.mem_cons_of_mem _ hx))

theorem ext_propagateLits : ∀ {ls : List Int}, Ext' false (propagateLits cc ls)
  | [] => by unfold propagateLits; ext_auto
  | l :: ls => by
    have ih := ext_propagateLits (ls := ls)
    unfold propagateLits propagateLit; ext_auto

theorem ext_solverPropagate {ls : List Int} : Ext' false (solverPropagate cc ls) := by
  unfold solverPropagate
  exact Ext'.bind ext_pushLevel (fun _ => ext_propagateLits)

theorem tr_solverPropagate {ls : List Int} (he : EnvSound cc β) (hl : ∀ l ∈ ls, l ≠ 0) :
    Tr β σ false (Inv β σ) (solverPropagate cc ls) (fun _ W => Inv β σ W) := by
  intro W r W' h
  refine ⟨ext_solverPropagate.ext _ _ _ h, fun hi hr => ?_⟩
  unfold solverPropagate at h
  obtain ⟨u, W1, h1, h2⟩ := SM.bind_ok h
  have key : Inv β σ W1 ∧ ∀ x, W1.book.levels.head? = some x → x.level = 0 → cc.level = 0 := by
    unfold pushLevel at h1
    obtain ⟨l, W2, h3, h4⟩ := SM.bind_ok h1
    obtain ⟨h5, rfl⟩ := curLevel_iff.mp h3
    unfold whenS at h4
    split_ifs at h4 with hc
    · rw [modify_iff] at h4
      subst h4
      refine ⟨hi.book _, fun x hx h0 => ?_⟩
      injection hx with hx
      subst hx
      exact h0
    · obtain ⟨-, rfl⟩ := pure_iff.mp h4
      refine ⟨hi, fun x hx h0 => ?_⟩
      rw [h5] at hx
      injection hx with hx
      subst hx
      simp at hc
      omega
  exact ((tr_propagateLits (L := W1.book.levels) he key.2 hl W1 r W' h2).2 ⟨key.1, rfl⟩ hr).1

theorem tr_ccProp (hsd : Side cc K L J) : Tr β σ false (AtP J β σ K L A) (ccPropagate cc) (fun _ W => AtP J β σ K L A W) := by
  refine Tr.keep (R := fun F => Kons K F ∧ At L A F) (Keep.and (Keep.fr Fr.ccPropagate) (Keep.fr Fr.ccPropagate)) ?_
  have ht : Tr β σ false (Inv β σ) (ccPropagate cc) (fun _ W => Inv β σ W) := Tr.ccPropagate (fun W b hW => hW.log trivial)
  exact (ht.keepJ (hsd.kw ht.ext (fun P hP => Kw.ccPropagate hP))).pre (fun W hW => hW.1)

theorem tr_factLoop {ck : Bool} {t : List SEv → List Int} {fuel : Nat} (he : EnvSound cc β) (hv : EnvMono cc) (ha : Adm β σ K) (hfx : FixedOK cc β K) (hsd : Side cc K L J)
    (hpr : ∀ ls, Kw J (solverPropagate cc ls)) (h0 : cc.level = 0) (ht : ∀ log, ∀ l ∈ t log, l ≠ 0) : ∀ {n : Nat}, Tr β σ false (AtP J β σ K L A) (factLoop cc t ck fuel n) (fun _ W => AtP J β σ K L A W)
  | 0 => Tr.ub
  | n + 1 => by
    have ih := tr_factLoop (ck := ck) (fuel := fuel) he hv ha hfx hsd hpr h0 ht (n := n)
    unfold factLoop
    refine Tr.bind (Q := fun _ W => AtP J β σ K L A W) (tr_ccProp hsd) (fun b => ?_)
    split
    · exact Tr.pure (fun _ h => h)
    refine Tr.bind (Q := fun _ W => AtP J β σ K L A W) (Tr.get (fun W hW => hW)) (fun W1 => ?_)
    dsimp only
    split
    · exact Tr.pure (fun _ h => h)
    refine Tr.bind (Q := fun _ W => AtP J β σ K L A W) ?_ (fun b => ?_)
    · refine Tr.keep (Keep.and keepK_solverPropagate (keep_propagate0 h0)) ?_
      exact ((tr_solverPropagate he (fun l hl => ht _ l (List.mem_of_mem_drop hl))).keepJ (hpr _)).pre (fun W hW => hW.1)
    split
    · exact Tr.pure (fun _ h => h)
    refine Tr.bind (Q := fun _ W => AtP J β σ K L A W) (Tr.modify (fun _ => Grow.same rfl rfl) (fun W hW _ => ⟨⟨hW.1.1.book _, hsd.book _ _ hW.1.2⟩, hW.2.1, ?_⟩)) (fun _ => ?_)
    · exact (keep_other (L := L) (A := A) (f := fun W => { W with book.trailOffset := (t W1.log).length })
        (fun W => ⟨W.book.splitLast, (t W1.log).length, W.book.minimizeLevel, W.book.minimizeBound, rfl⟩)).keep W () _ rfl hW.2.2
    refine Tr.bind (tr_solverCheck he hv ha hfx hsd) (fun b => ?_)
    split
    · exact Tr.pure (fun _ h => h)
    · exact ih

/-! ### Bounds of other solvers -/

theorem ofF {x : SM α} {p : α → Prop} (h : ∀ F, Tr β σ m (InvF β σ F) x (fun a W => InvF β σ F W ∧ p a)) :
    Tr β σ m (Inv β σ) x (fun a W => Inv β σ W ∧ p a) := by
  intro W a W' hx
  refine ⟨(h (frame W) _ _ _ hx).1, fun hi hr => ?_⟩
  obtain ⟨h1, h2⟩ := (h (frame W) _ _ _ hx).2 ⟨hi, rfl⟩ hr
  exact ⟨h1.1, h2⟩

theorem tr_takeUpper {v : Nat} {o : VarState} (tt : litTrue β 1) (ho : σ v ≤ o.upper) : Tr β σ false (Inv β σ) (takeUpper cc v o) (fun _ W => Inv β σ W) := by
  unfold takeUpper
  refine Tr.bind (Q := fun _ => Inv β σ) (Tr.getVar (fun _ _ h _ => h)) (fun vs => ?_)
  refine Tr.ite (fun _ => ?_) (fun _ => Tr.pure (fun _ h => h))
  refine Tr.bind (ofF (p := fun l => l ≠ 0 ∧ (litTrue β l ↔ σ v ≤ o.upper)) (fun F => tr_updateLiteral tt ?_)) (fun l => Tr.assume (by ext_auto) (fun hl => ?_))
  · intro t ht _
    injection ht with ht
    subst ht
    simpa using ho
  · exact Tr.addClause (fun W b hW _ => hW.log ⟨l, by simp, hl.2.mpr ho⟩)

theorem tr_takeLower {v : Nat} {o : VarState} (tt : litTrue β 1) (ho : o.lower ≤ σ v) : Tr β σ false (Inv β σ) (takeLower cc v o) (fun _ W => Inv β σ W) := by
  unfold takeLower
  refine Tr.bind (Q := fun _ => Inv β σ) (Tr.getVar (fun _ _ h _ => h)) (fun vs => ?_)
  refine Tr.ite (fun _ => ?_) (fun _ => Tr.pure (fun _ h => h))
  refine Tr.bind (ofF (p := fun l => l ≠ 0 ∧ (litTrue β l ↔ σ v ≤ o.lower - 1)) (fun F => tr_updateLiteral tt ?_)) (fun l => Tr.assume (by ext_auto) (fun hl => ?_))
  · intro t ht _
    injection ht with ht
    subst ht
    simp; omega
  · exact Tr.addClause (fun W b hW _ => hW.log ⟨-l, by simp, (litTrue_neg hl.1).mpr (fun h => by have := hl.2.mp h; omega)⟩)

theorem tr_takeBounds (tt : litTrue β 1) : ∀ {os : List VarState} {v : Nat}, (∀ (i : Nat) (o : VarState), os[i]? = some o → o.lower ≤ σ (v + i) ∧ σ (v + i) ≤ o.upper) →
    Tr β σ false (Inv β σ) (takeBounds cc v os) (fun _ W => Inv β σ W)
  | [], v, _ => Tr.pure (fun _ h => h)
  | o :: os, v, ho => by
    unfold takeBounds
    have h0 := ho 0 o rfl
    refine Tr.bind (tr_takeUpper tt h0.2) (fun b => ?_)
    split
    · exact Tr.pure (fun _ h => h)
    refine Tr.bind (tr_takeLower tt h0.1) (fun b => ?_)
    split
    · exact Tr.pure (fun _ h => h)
    refine tr_takeBounds tt (fun i o' h' => ?_)
    have := ho (i + 1) o' (by simpa using h')
    rwa [show v + 1 + i = v + (i + 1) by omega]

theorem tr_updateBounds {ck : Bool} {n : Nat} {os : List VarState} (he : EnvSound cc β) (hv : EnvMono cc) (ha : Adm β σ K) (hfx : FixedOK cc β K) (hsd : Side cc K L J)
    (ho : ∀ (i : Nat) (o : VarState), os[i]? = some o → o.lower ≤ σ i ∧ σ i ≤ o.upper) :
    Tr β σ false (AtP J β σ K L A) (updateBounds cc os ck n) (fun _ W => AtP J β σ K L A W) := by
  unfold Clingcon.updateBounds
  refine Tr.bind (Q := fun _ W => AtP J β σ K L A W) ?_ (fun b => ?_)
  · refine Tr.keep (Keep.and (Keep.fr fr_takeBounds) (Keep.fr fr_takeBounds)) ?_
    exact ((tr_takeBounds he.tt (v := 0) (fun i o h => by simpa using ho i o h)).keepJ (hsd.kw ext_takeBounds (fun P hP => kw_takeBounds hP))).pre (fun W hW => hW.1)
  · split
    · exact Tr.pure (fun _ h => h)
    · exact tr_solverCheck he hv ha hfx hsd

/-! ### Final checks and decisions -/

theorem tr_splitVar {v : Nat} (tt : litTrue β 1) : Tr β σ false (Inv β σ) (splitVar cc v) (fun _ W => Inv β σ W) := by
  unfold splitVar
  refine Tr.bind (Q := fun _ => Inv β σ) (Tr.getVar (fun _ _ h _ => h)) (fun vs => ?_)
  refine Tr.ite (fun _ => ?_) (fun _ => Tr.pure (fun _ h => h))
  refine Tr.bind (Q := fun _ => Inv β σ) (Tr.discard ((ofF (fun F => tr_getLiteral tt)).post (fun _ _ h => h.1))) (fun _ => Tr.pure (fun _ h => h))

theorem tr_splitEach (tt : litTrue β 1) : ∀ {vs : List Nat}, Tr β σ false (Inv β σ) (splitEach cc vs) (fun _ W => Inv β σ W)
  | [] => Tr.pure (fun _ h => h)
  | v :: vs => by
    unfold splitEach
    exact Tr.bind (tr_splitVar tt) (fun _ => Tr.bind (tr_splitEach tt) (fun _ => Tr.pure (fun _ h => h)))

theorem tr_splitFirst (tt : litTrue β 1) : ∀ {vs : List Nat}, Tr β σ false (Inv β σ) (splitFirst cc vs) (fun _ W => Inv β σ W)
  | [] => Tr.pure (fun _ h => h)
  | v :: vs => by
    unfold splitFirst
    refine Tr.bind (tr_splitVar tt) (fun b => ?_)
    split
    · exact Tr.bind (Q := fun _ => Inv β σ) (Tr.modify (fun _ => Grow.same rfl rfl) (fun W hW _ => hW.book _)) (fun _ => Tr.pure (fun _ h => h))
    · exact tr_splitFirst tt

/-- Computations that do not change the state. -/
def Pur (x : SM α) : Prop := ∀ W a W', x W = .ok (a, W') → W' = W

theorem Pur.bind {x : SM α} {f : α → SM γ} (hx : Pur x) (hf : ∀ a, Pur (f a)) : Pur (x >>= f) := by
  intro W b W' h
  obtain ⟨a, W1, h1, h2⟩ := SM.bind_ok h
  have := hx _ _ _ h1
  subst this
  exact hf _ _ _ _ h2
theorem Pur.pure {a : α} : Pur (Pure.pure a : SM α) := fun _ _ _ h => (pure_iff.mp h).2
theorem Pur.throw {e : Err} : Pur (throw e : SM α) := fun _ _ _ h => by cases h
theorem Pur.ub : Pur (SM.ub : SM α) := fun _ _ _ h => by cases h
theorem Pur.getVar {v : Nat} : Pur (getVar v) := fun _ _ _ h => (getVar_iff.mp h).2
theorem Pur.get : Pur (get : SM World) := fun _ _ _ h => (get_iff.mp h).2
theorem Pur.qTrue {l : Int} : Pur (qTrue cc l) := fun _ _ _ h => (qTrue_iff.mp h).2
theorem Pur.qValue {l : Int} : Pur (qValue cc l) := fun _ _ _ h => (qValue_iff.mp h).2
theorem Pur.litmapAt {l : Int} : Pur (litmapAt l) := fun _ _ _ h => (litmapAt_iff.mp h).2
theorem Pur.liftRes {r : Res α} : Pur (liftRes r) := fun _ _ _ h => (liftRes_iff.mp h).2
theorem Pur.assertS {b : Bool} : Pur (assertS b) := by
  unfold Clingcon.assertS; split
  · exact Pur.pure
  · exact Pur.ub
theorem Pur.whenS {b : Bool} {x : SM Unit} (h : Pur x) : Pur (whenS b x) := by
  unfold Clingcon.whenS; split
  · exact h
  · exact Pur.pure

syntax "pur_step" : tactic
macro_rules | `(tactic| pur_step) => `(tactic| dsimp only)
macro_rules | `(tactic| pur_step) => `(tactic| intro _)
macro_rules | `(tactic| pur_step) => `(tactic| split)
macro_rules | `(tactic| pur_step) => `(tactic| with_reducible apply Pur.bind)
macro_rules | `(tactic| pur_step) => `(tactic| with_reducible apply Pur.whenS)
macro_rules | `(tactic| pur_step) => `(tactic| with_reducible exact Pur.pure)
macro_rules | `(tactic| pur_step) => `(tactic| with_reducible exact Pur.throw)
macro_rules | `(tactic| pur_step) => `(tactic| with_reducible exact Pur.getVar)
macro_rules | `(tactic| pur_step) => `(tactic| with_reducible exact Pur.get)
macro_rules | `(tactic| pur_step) => `(tactic| with_reducible exact Pur.qTrue)
macro_rules | `(tactic| pur_step) => `(tactic| with_reducible exact Pur.qValue)
macro_rules | `(tactic| pur_step) => `(tactic| with_reducible exact Pur.litmapAt)
macro_rules | `(tactic| pur_step) => `(tactic| with_reducible exact Pur.liftRes)
macro_rules | `(tactic| pur_step) => `(tactic| with_reducible exact Pur.assertS)
macro_rules | `(tactic| pur_step) => `(tactic| with_reducible assumption)
syntax "pur_auto" : tactic
macro_rules | `(tactic| pur_auto) => `(tactic| repeat (any_goals pur_step))

theorem pur_checkValue : ∀ {es : List (Int × Nat)}, Pur (checkValue es)
  | [] => Pur.pure
  | (co, v) :: es => by
    have ih := pur_checkValue (es := es)
    unfold checkValue; pur_auto
macro_rules | `(tactic| pur_step) => `(tactic| with_reducible exact pur_checkValue)
theorem pur_distinctCheckFull : ∀ {es : List (List (Int × Nat) × Int)} {vs : List Int}, Pur (distinctCheckFull es vs)
  | [], _ => Pur.pure
  | (e, f) :: es, vs => by
    have ih : ∀ vs, Pur (distinctCheckFull es vs) := fun vs => pur_distinctCheckFull
    unfold distinctCheckFull
    repeat (any_goals (first | with_reducible exact ih _ | pur_step))
theorem pur_disjointCheckFull : ∀ {es : List (Int × Nat)} {s : IntervalSet}, Pur (disjointCheckFull es s)
  | [], _ => Pur.pure
  | (w, v) :: es, s => by
    have ih : ∀ s, Pur (disjointCheckFull es s) := fun s => pur_disjointCheckFull
    unfold disjointCheckFull
    repeat (any_goals (first | with_reducible exact ih _ | pur_step))
macro_rules | `(tactic| pur_step) => `(tactic| with_reducible exact pur_distinctCheckFull)
macro_rules | `(tactic| pur_step) => `(tactic| with_reducible exact pur_disjointCheckFull)
theorem pur_checkFullCS {c : CState} : Pur (checkFullCS c) := by
  unfold checkFullCS sumCheckFull nonlinearCheckFull; pur_auto
macro_rules | `(tactic| pur_step) => `(tactic| with_reducible exact pur_checkFullCS)
theorem pur_checkSolution : ∀ {cs : List CState}, Pur (checkSolution cc cs)
  | [] => Pur.pure
  | c :: cs => by
    have ih := pur_checkSolution (cs := cs)
    unfold checkSolution; pur_auto
theorem pur_solverDecide {l : Int} : Pur (solverDecide cc l) := by unfold solverDecide; pur_auto

theorem tr_solverCheckFull {b : Bool} (tt : litTrue β 1) : Tr β σ false (Inv β σ) (solverCheckFull cc b) (fun _ W => Inv β σ W) := by
  unfold solverCheckFull
  refine Tr.bind (Q := fun _ => Inv β σ) (tr_read Pur.get) (fun W => ?_)
  dsimp only
  refine Tr.bind (Q := fun _ => Inv β σ) ?_ (fun s => ?_)
  · split
    · exact tr_splitEach tt
    · exact tr_splitFirst tt
  · exact tr_read (Pur.whenS (Pur.bind Pur.get (fun _ => pur_checkSolution)))

/-! ### Undo -/

theorem tr_undoLowerVar {v : Nat} : Tr β σ false (Inv β σ) (undoLowerVar v) (fun _ W => Inv β σ W) := by
  intro W u W' h
  unfold undoLowerVar at h
  simp only [smok] at h
  obtain ⟨y, W1, ⟨hv, rfl⟩, y', W2, ⟨hp, rfl⟩, _, W3, rfl, rfl⟩ := h
  refine ⟨Grow.same rfl rfl, fun hi _ => ?_⟩
  have hne : y.lowerStack ≠ [] := by
    intro e
    unfold VarState.popLower at hp
    rw [e] at hp; cases hp
  obtain ⟨y2, h1, h2, h3, h4⟩ := VarState.popLower_ok hne
  rw [hp] at h1
  injection h1 with h1
  subst h1
  have hb := hi.good.bound _ _ hv
  exact Inv.book (Inv.newBounds hi hv h4 h2.ge h3.le (by rw [h2]; exact hb.1) (by rw [h3]; exact hb.2)) _

theorem tr_undoUpperVar {v : Nat} : Tr β σ false (Inv β σ) (undoUpperVar v) (fun _ W => Inv β σ W) := by
  intro W u W' h
  unfold undoUpperVar at h
  simp only [smok] at h
  obtain ⟨y, W1, ⟨hv, rfl⟩, y', W2, ⟨hp, rfl⟩, _, W3, rfl, rfl⟩ := h
  refine ⟨Grow.same rfl rfl, fun hi _ => ?_⟩
  have hne : y.upperStack ≠ [] := by
    intro e
    unfold VarState.popUpper at hp
    rw [e] at hp; cases hp
  obtain ⟨y2, h1, h2, h3, h4⟩ := VarState.popUpper_ok hne
  rw [hp] at h1
  injection h1 with h1
  subst h1
  have hb := hi.good.bound _ _ hv
  exact Inv.book (Inv.newBounds hi hv h4 h2.ge h3.le (by rw [h2]; exact hb.1) (by rw [h3]; exact hb.2)) _

theorem tr_undoLowers : ∀ {vs : List Nat}, Tr β σ false (Inv β σ) (undoLowers vs) (fun _ W => Inv β σ W)
  | [] => Tr.pure (fun _ h => h)
  | v :: vs => by unfold undoLowers; exact Tr.bind tr_undoLowerVar (fun _ => tr_undoLowers)
theorem tr_undoUppers : ∀ {vs : List Nat}, Tr β σ false (Inv β σ) (undoUppers vs) (fun _ W => Inv β σ W)
  | [] => Tr.pure (fun _ h => h)
  | v :: vs => by unfold undoUppers; exact Tr.bind tr_undoUpperVar (fun _ => tr_undoUppers)

theorem tr_bookOnly {f : World → World} (h : ∀ W, ∃ b, f W = { W with book := b }) : Tr β σ false (Inv β σ) (modify f) (fun _ W => Inv β σ W) :=
  Tr.modify (fun W => by obtain ⟨b, e⟩ := h W; rw [e]; exact Grow.same rfl rfl) (fun W hW _ => by obtain ⟨b, e⟩ := h W; rw [e]; exact hW.book b)

theorem tr_solverUndo : Tr β σ false (Inv β σ) solverUndo (fun _ W => Inv β σ W) := by
  unfold solverUndo levelUndo
  refine Tr.bind (Q := fun _ => Inv β σ) (tr_read (fun _ _ _ h => (curLevel_iff.mp h).2)) (fun l => ?_)
  refine Tr.bind (Q := fun _ => Inv β σ) (Tr.assertS (fun _ _ h => h)) (fun _ => ?_)
  refine Tr.bind (Q := fun _ => Inv β σ) ?_ (fun _ => ?_)
  · refine Tr.bind (Q := fun _ => Inv β σ) (tr_read Pur.get) (fun W => ?_)
    refine Tr.bind tr_undoLowers (fun _ => ?_)
    refine Tr.bind (tr_bookOnly (fun W => ⟨_, rfl⟩)) (fun _ => ?_)
    refine Tr.bind (Q := fun _ => Inv β σ) (tr_read Pur.get) (fun W => ?_)
    refine Tr.bind tr_undoUppers (fun _ => ?_)
    exact Tr.bind (tr_bookOnly (fun W => ⟨_, rfl⟩)) (fun _ => tr_bookOnly (fun W => ⟨_, rfl⟩))
  · refine Tr.bind (tr_bookOnly (fun W => ⟨_, rfl⟩)) (fun _ => ?_)
    exact Tr.discard (tr_read (fun _ _ _ h => (curLevel_iff.mp h).2))

/-! ### The constraints over calls -/

theorem undoWatches_con {d : Int} {ws : List (Int × Nat)} {cs : List CState} : (Book.undoWatches d ws cs).map (·.con) = cs.map (·.con) := by
  obtain ⟨h1, h2⟩ := @undoWatches_eff d ws cs
  refine map_con_eq h1 (fun n c hc => ?_)
  obtain ⟨c', h3, h4, -⟩ := h2 n c hc
  exact ⟨c', h3, h4.con⟩

theorem keepK_undoLowers : ∀ {vs : List Nat}, Keep (Kons K) (undoLowers vs)
  | [] => Keep.fr Fr.pure
  | v :: vs => by
    unfold undoLowers undoLowerVar
    refine Keep.bind ⟨fun W u W' h hk => ?_⟩ (fun _ => keepK_undoLowers)
    simp only [smok] at h
    obtain ⟨y, W1, ⟨hv, rfl⟩, y', W2, ⟨hp, rfl⟩, _, W3, rfl, rfl⟩ := h
    rw [← (show konsB W2.book = K from hk)]
    refine Prod.ext ?_ rfl
    simp only [konsB, frame]
    split_ifs
    · exact undoWatches_con
    · rfl

theorem keepK_undoUppers : ∀ {vs : List Nat}, Keep (Kons K) (undoUppers vs)
  | [] => Keep.fr Fr.pure
  | v :: vs => by
    unfold undoUppers undoUpperVar
    refine Keep.bind ⟨fun W u W' h hk => ?_⟩ (fun _ => keepK_undoUppers)
    simp only [smok] at h
    obtain ⟨y, W1, ⟨hv, rfl⟩, y', W2, ⟨hp, rfl⟩, _, W3, rfl, rfl⟩ := h
    rw [← (show konsB W2.book = K from hk)]
    refine Prod.ext ?_ rfl
    simp only [konsB, frame]
    split_ifs
    · exact undoWatches_con
    · rfl

theorem keepK_modify {f : World → World} (h : ∀ W, konsB (f W).book = konsB W.book) : Keep (Kons K) (modify f) :=
  ⟨fun W u W' hx hk => by rw [modify_iff] at hx; subst hx; exact (h W).trans hk⟩

theorem keepK_solverUndo : Keep (Kons K) solverUndo := by
  unfold solverUndo levelUndo
  refine Keep.bind (Keep.fr (by fr_auto)) (fun l => ?_)
  refine Keep.bind (Keep.fr (by fr_auto)) (fun _ => ?_)
  refine Keep.bind ?_ (fun _ => ?_)
  · refine Keep.bind (Keep.fr (by fr_auto)) (fun W => ?_)
    refine Keep.bind keepK_undoLowers (fun _ => ?_)
    refine Keep.bind (keepK_modify (fun _ => rfl)) (fun _ => ?_)
    refine Keep.bind (Keep.fr (by fr_auto)) (fun W => ?_)
    refine Keep.bind keepK_undoUppers (fun _ => ?_)
    exact Keep.bind (keepK_modify (fun _ => rfl)) (fun _ => keepK_modify (fun W => Prod.ext (by
      show (Book.unmarkTodo (Book.activate _ _) _).map (·.con) = _
      rw [unmarkTodo_con, activate_con]; rfl) rfl))
  · refine Keep.bind (keepK_modify (fun _ => rfl)) (fun _ => Keep.fr (by fr_auto))

theorem keepK_splitFirst : ∀ {vs : List Nat}, Keep (Kons K) (splitFirst cc vs)
  | [] => Keep.fr Fr.pure
  | v :: vs => by
    unfold splitFirst
    refine Keep.bind (Keep.fr fr_splitVar) (fun b => ?_)
    split
    · exact Keep.bind (keepK_modify (fun _ => rfl)) (fun _ => Keep.fr Fr.pure)
    · exact keepK_splitFirst

theorem keepK_solverCheckFull {b : Bool} : Keep (Kons K) (solverCheckFull cc b) := by
  unfold solverCheckFull
  refine Keep.bind (Keep.fr (by fr_auto)) (fun W => ?_)
  dsimp only
  refine Keep.bind ?_ (fun s => ?_)
  · split
    · exact Keep.fr fr_splitEach
    · exact keepK_splitFirst
  · exact Keep.fr (by fr_auto)

theorem keepK_factLoop {ck : Bool} {t : List SEv → List Int} {fuel : Nat} : ∀ {n : Nat}, Keep (Kons K) (factLoop cc t ck fuel n)
  | 0 => Keep.fr Fr.ub
  | n + 1 => by
    have ih := keepK_factLoop (ck := ck) (t := t) (fuel := fuel) (n := n)
    unfold factLoop
    refine Keep.bind (Keep.fr (by fr_auto)) (fun b => ?_)
    split
    · exact Keep.fr Fr.pure
    refine Keep.bind (Keep.fr (by fr_auto)) (fun W => ?_)
    dsimp only
    split
    · exact Keep.fr Fr.pure
    refine Keep.bind keepK_solverPropagate (fun b => ?_)
    split
    · exact Keep.fr Fr.pure
    refine Keep.bind (keepK_modify (fun _ => rfl)) (fun _ => ?_)
    refine Keep.bind keepK_solverCheck (fun b => ?_)
    split
    · exact Keep.fr Fr.pure
    · exact ih

theorem updateMinimize_kons {b : Book} {n l : Nat} {x : Int} : konsB (b.updateMinimize n l x) = konsB b ∨ konsB (b.updateMinimize n l x) = ((konsB b).1, some x) := by
  unfold Book.updateMinimize
  split_ifs
  · right; rw [markTodo_kons]; rfl
  · left; rw [markTodo_kons]; rfl
  · left; rfl

theorem removeConstraints_con {b : Book} {rem : Nat → Bool} : konsB (b.removeConstraints rem) = konsB b := by
  refine Prod.ext ?_ rfl
  refine Eq.trans (map_con_eq (cs := Book.unmarkTodo (Book.activate b.cs b.inactive) b.todo) (by simp [Book.removeConstraints]) (fun n c hc => ?_)) ?_
  · refine ⟨if rem n then { c with alive := false } else c, ?_, ?_⟩
    · simp only [Book.removeConstraints]
      rw [List.getElem?_map, List.getElem?_zipIdx, hc]
      simp
    · split_ifs <;> rfl
  · rw [unmarkTodo_con, activate_con]; rfl

theorem Inv.addVar {lo hi : Int} {v : Nat} (h : Inv β σ W) (h1 : lo ≤ σ W.vars.length) (h2 : σ W.vars.length ≤ hi) (hx : addVar lo hi W = .ok (v, W')) :
    Inv β σ W' ∧ konsB W'.book = konsB W.book ∧ W'.log = W.log := by
  unfold Clingcon.addVar at hx
  injection hx with hx
  obtain ⟨rfl, rfl⟩ := Prod.mk.inj hx
  have hget : ∀ (w : Nat) vs, (W.vars ++ [({ lower := lo, upper := hi } : VarState)])[w]? = some vs → W.vars[w]? = some vs ∨ (w = W.vars.length ∧ vs = { lower := lo, upper := hi }) := by
    intro w vs hw
    rw [List.getElem?_append] at hw
    split_ifs at hw with hlt
    · exact .inl hw
    · right
      cases hk : w - W.vars.length with
      | zero => rw [hk] at hw; injection hw with hw; exact ⟨by omega, hw.symm⟩
      | succ k => rw [hk] at hw; cases hw
  refine ⟨⟨⟨h.good.pos, ?_, ?_, h.good.litmap, h.good.facts, h.good.posted⟩, ?_⟩, rfl, rfl⟩
  · intro w vs hw k l hm
    rcases hget w vs hw with hw | ⟨rfl, rfl⟩
    · exact h.good.table w vs hw k l hm
    · cases hm
  · intro w vs hw
    rcases hget w vs hw with hw | ⟨rfl, rfl⟩
    · exact h.good.bound w vs hw
    · exact ⟨h1, h2⟩
  · intro w vs hw
    rcases hget w vs hw with hw | ⟨rfl, rfl⟩
    · exact h.wf w vs hw
    · exact ⟨List.Pairwise.nil, fun p hp => by cases hp⟩

theorem addConstraint_only {c : Constr} {n : Nat} (hx : addConstraint c W = .ok (n, W')) :
    ∃ b, W' = { W with book := b } ∧ konsB b = ((konsB W.book).1 ++ [c], (konsB W.book).2) := by
  unfold Clingcon.addConstraint at hx
  obtain ⟨st, W1, h1, h2⟩ := SM.bind_ok hx
  obtain ⟨rfl, s1, s2, s3, s4, s5⟩ := initState_eff h1
  simp only [smok] at h2
  obtain ⟨W2, W3, ⟨rfl, rfl⟩, _, W4, rfl, _, W5, h5, _, W6, rfl, rfl, rfl⟩ := h2
  obtain ⟨e1, -⟩ := addVarWatches_eff h5
  refine ⟨W5.book.markTodo W3.book.cs.length, ?_, ?_⟩
  · rw [e1]
  · rw [markTodo_kons, e1]
    simp [konsB, s1]

theorem removeConstraint_only {n : Nat} {u : Unit} (hx : removeConstraint n W = .ok (u, W')) :
    ∃ b, W' = { W with book := b } ∧ konsB b = konsB W.book := by
  unfold Clingcon.removeConstraint at hx
  obtain ⟨W1, W2, h1, h2⟩ := SM.bind_ok hx
  obtain ⟨e0, e0'⟩ := get_iff.mp h1
  rw [e0, e0'] at h2
  cases hc : W.book.cs[n]? with
  | none => rw [hc] at h2; cases h2
  | some c =>
    rw [hc] at h2
    obtain ⟨_, W3, h3, h4⟩ := SM.bind_ok h2
    obtain ⟨l, W4, h5, h6⟩ := SM.bind_ok h4
    simp only [smok] at h5 h6
    obtain ⟨ls, hls, rfl⟩ := h5
    obtain ⟨_, W5, ⟨hl, rfl⟩, rfl⟩ := h6
    obtain ⟨e1, -⟩ := removeVarWatches_eff h3
    refine ⟨W5.book.removeMarks n, by rw [e1], ?_⟩
    unfold Book.removeMarks
    have hcs : W5.book.cs = W.book.cs := by rw [e1]
    rw [hcs, hc]
    refine Prod.ext ?_ ?_
    · exact map_con_set hc rfl
    · show W5.book.minimizeBound = _
      rw [e1]; rfl

/-- Each call keeps the invariant, and what it adds holds. -/
theorem step_sound {op : Op} {r : Bool} (hp : op.pre W) (he : ∀ cc, opEnv op = some cc → EnvAgrees cc β W) (hadm : admitted β σ W op)
    (h : op.exec W = .ok (r, W')) (hw : WI W) (hnest : AllNested W) (hti : TI W) (hi : Inv β σ W) (ha : Adm β σ (konsB W.book)) :
    (∃ new, W'.log = new ++ W.log) ∧ (Respects β σ W'.log → Inv β σ W' ∧ Adm β σ (konsB W'.book)) := by
  have hfx : ∀ cc, opEnv op = some cc → FixedOK cc β (konsB W.book) := by
    intro cc hcc l hm log hl hf
    rcases hm with ⟨es, hm⟩ | ⟨es, hm⟩
    · obtain ⟨c, hc, hce⟩ := List.mem_map.mp hm
      exact (he cc hcc).fixed c hc l (Or.inl ⟨es, hce⟩) log hl hf
    · obtain ⟨c, hc, hce⟩ := List.mem_map.mp hm
      exact (he cc hcc).fixed c hc l (Or.inr ⟨es, hce⟩) log hl hf
  have hside : ∀ cc, opEnv op = some cc → ∃ J, Side cc (konsB W.book) W.book.levels J ∧ J W ∧ (cc.level = 0 → ∀ ls, Kw J (solverPropagate cc ls)) := by
    intro cc hcc
    refine side_of hw.bi hw.base hnest hti (he cc hcc).mono (fun l es hm => ?_)
    obtain ⟨c, hc, hce⟩ := List.mem_map.mp hm
    exact (he cc hcc).just ⟨c, hc, l, es, hce⟩
  have asm : ∀ {W' : World}, Respects β σ W'.log → Asm β σ false W' := fun hr => ⟨hr, fun h => by cases h⟩
  have keepA : ∀ {α : Type} {x : SM α} {a : α} {W' : World}, (∀ K, Keep (Kons K) x) → x W = .ok (a, W') → Adm β σ (konsB W'.book) := by
    intro α x a W' hk hx
    have : konsB W'.book = konsB W.book := (hk (konsB W.book)).keep _ _ _ hx rfl
    rw [this]; exact ha
  have kp : ∀ {α : Type} {x : SM α} {Q : α → World → Prop} {P : World → Prop} {a : α} {W' : World}, Tr β σ false P x Q → P W → (∀ K, Keep (Kons K) x) → (∀ a W, Q a W → Inv β σ W) →
      x W = .ok (a, W') → (∃ new, W'.log = new ++ W.log) ∧ (Respects β σ W'.log → Inv β σ W' ∧ Adm β σ (konsB W'.book)) := by
    intro α x Q P a W' ht hP hk hq hx
    exact ⟨(ht _ _ _ hx).1.1, fun hr => ⟨hq _ _ ((ht _ _ _ hx).2 hP (asm hr)), keepA hk hx⟩⟩
  have hat : At W.book.levels (alF (frame W), auF (frame W), (frame W).1.length) (frame W) := ⟨hw.bi, rfl, fun _ _ _ _ _ => ⟨rfl, rfl⟩, rfl⟩
  have book : ∀ {b : Book}, konsB b = konsB W.book → (∃ new, ({ W with book := b } : World).log = new ++ W.log) ∧ (Respects β σ W.log → Inv β σ { W with book := b } ∧ Adm β σ (konsB b)) := by
    intro b hb
    exact ⟨(Grow.same (m := false) rfl rfl).1, fun _ => ⟨hi.book _, by rw [hb]; exact ha⟩⟩
  cases op with
  | addVar lo hi' =>
    obtain ⟨_, W1, h1, h2⟩ := SM.bind_ok h
    obtain ⟨-, rfl⟩ := pure_iff.mp h2
    obtain ⟨v, h3⟩ := discard_iff.mp h1
    obtain ⟨h4, h5, h6⟩ := hi.addVar hadm.1 hadm.2 h3
    refine ⟨?_, fun _ => ⟨h4, by rw [h5]; exact ha⟩⟩
    unfold Clingcon.addVar at h3
    injection h3 with h3
    obtain ⟨rfl, rfl⟩ := Prod.mk.inj h3
    exact (Grow.same (m := false) rfl rfl).1
  | enable => rw [(enable_iff.mp h).2]; exact book rfl
  | fresh =>
    rw [(fresh_iff.mp h).2]
    refine ⟨⟨[_], rfl⟩, fun _ => ⟨⟨⟨?_, hi.good.table, hi.good.bound, hi.good.litmap, hi.good.facts, ?_⟩, hi.wf⟩, ha⟩⟩
    · have := hi.good.pos
      show 0 < W.nextLit + 1
      omega
    · intro e he
      rcases List.mem_cons.mp he with rfl | he
      · exact trivial
      · exact hi.good.posted e he
  | post e =>
    rw [(post_iff.mp h).2]
    refine ⟨⟨[_], rfl⟩, fun _ => ⟨⟨⟨hi.good.pos, hi.good.table, hi.good.bound, hi.good.litmap, hi.good.facts, ?_⟩, hi.wf⟩, ha⟩⟩
    intro e he
    rcases List.mem_cons.mp he with rfl | he
    · exact hadm
    · exact hi.good.posted e he
  | literal cc v x =>
    exact kp (Q := fun _ W' => InvF β σ (frame W) W') (Tr.bind (Tr.discard ((tr_getLiteral (he cc rfl).sound.tt).post (fun _ _ h => h.1))) (fun _ => Tr.pure (fun _ h => h)))
      ⟨hi, rfl⟩ (fun K => Keep.bind (Keep.discard (Keep.fr fr_getLiteral)) (fun _ => Keep.fr Fr.pure)) (fun _ _ h => h.1) h
  | updLiteral cc v x t =>
    exact kp (Q := fun _ W' => InvF β σ (frame W) W') (Tr.bind (Tr.discard ((tr_updateLiteral (he cc rfl).sound.tt (fun b hb _ => hadm b hb)).post (fun _ _ h => h.1))) (fun _ => Tr.pure (fun _ h => h)))
      ⟨hi, rfl⟩ (fun K => Keep.bind (Keep.discard (Keep.fr fr_updateLiteral)) (fun _ => Keep.fr Fr.pure)) (fun _ _ h => h.1) h
  | simple cc l co v rhs s =>
    exact kp (tr_addSimple (F := frame W) (he cc rfl).sound hadm.1 hp.1 hadm.2.1 (fun _ => hadm.2.2)) ⟨hi, rfl⟩ (fun K => Keep.fr fr_addSimple) (fun _ _ h => h.1.1) h
  | dom cc l v d =>
    obtain ⟨a1, a2, a3, a4⟩ := hadm
    refine kp (tr_addDom (F := frame W) (he cc rfl).sound a1 a2 (fun _ hl => ?_)) ⟨hi, rfl⟩ (fun K => Keep.fr fr_addDom) (fun _ _ h => h.1.1) h
    by_cases hne : d = []
    · subst hne; exact ⟨trivial, trivial⟩
    · exact (dom_iff ⟨a3.1, a3.2.imp (fun h => by omega)⟩ hne).mpr (a4 hl)
  | addConstraint c =>
    obtain ⟨_, W1, h1, h2⟩ := SM.bind_ok h
    obtain ⟨-, rfl⟩ := pure_iff.mp h2
    obtain ⟨v, h3⟩ := discard_iff.mp h1
    obtain ⟨b, rfl, hb⟩ := addConstraint_only h3
    refine ⟨(Grow.same (m := false) rfl rfl).1, fun _ => ⟨hi.book _, ?_⟩⟩
    show Adm β σ (konsB b)
    rw [hb]
    intro c' hc'
    rcases List.mem_append.mp hc' with hc' | hc'
    · exact ha _ hc'
    · rw [List.mem_singleton] at hc'
      subst hc'
      exact hadm
  | removeConstraint n =>
    obtain ⟨_, W1, h1, h2⟩ := SM.bind_ok h
    obtain ⟨-, rfl⟩ := pure_iff.mp h2
    obtain ⟨b, rfl, hb⟩ := removeConstraint_only h1
    exact book hb
  | removeConstraints rem =>
    obtain ⟨_, W1, h1, h2⟩ := SM.bind_ok h
    obtain ⟨-, rfl⟩ := pure_iff.mp h2
    obtain rfl := modify_iff.mp h1
    exact book removeConstraints_con
  | updateMinimize n l b =>
    obtain ⟨_, W1, h1, h2⟩ := SM.bind_ok h
    obtain ⟨-, rfl⟩ := pure_iff.mp h2
    obtain rfl := modify_iff.mp h1
    rcases updateMinimize_kons (b := W.book) (n := n) (l := l) (x := b) with hk | hk
    · exact book hk
    · refine ⟨(Grow.same (m := false) rfl rfl).1, fun _ => ⟨hi.book _, ?_⟩⟩
      show Adm β σ (konsB (W.book.updateMinimize n l b))
      rw [hk]
      intro c' hc'
      have h0 := ha c' hc'
      cases c' with
      | minimize a es =>
        obtain ⟨c, hc, hce⟩ := List.mem_map.mp hc'
        exact ⟨h0.1, hadm c hc a es hce⟩
      | sum l rhs es => exact h0
      | distinct l es => exact h0
      | nonlinear l ca x y cb z rhs => exact h0
      | disjoint l es => exact h0
  | propagate cc ls =>
    exact kp (tr_solverPropagate (he cc rfl).sound hadm) hi (fun K => keepK_solverPropagate) (fun _ _ h => h) h
  | check cc b n =>
    obtain ⟨J, hsd, hJ, -⟩ := hside cc rfl
    exact kp (tr_solverCheck (he cc rfl).sound (he cc rfl).mono ha (hfx cc rfl) hsd) ⟨⟨hi, hJ⟩, rfl, hat⟩ (fun K => keepK_solverCheck) (fun _ _ h => h.1.1) h
  | simplify cc t b n =>
    unfold Op.exec solverSimplify at h
    obtain ⟨J, hsd, hJ, hpr⟩ := hside cc rfl
    exact kp (tr_factLoop (he cc rfl).sound (he cc rfl).mono ha (hfx cc rfl) hsd (hpr hp) hp hadm) ⟨⟨hi, hJ⟩, rfl, hat⟩ (fun K => keepK_factLoop) (fun _ _ h => h.1.1) h
  | undo =>
    exact kp (Q := fun _ => Inv β σ) (Tr.bind (tr_solverUndo (σ := σ)) (fun _ => Tr.pure (fun _ h => h))) hi (fun K => Keep.bind keepK_solverUndo (fun _ => Keep.fr Fr.pure)) (fun _ _ h => h) h
  | decide cc l =>
    exact kp (Q := fun _ => Inv β σ) (Tr.bind (Q := fun _ => Inv β σ) (Tr.discard (tr_read pur_solverDecide)) (fun _ => Tr.pure (fun _ h => h))) hi
      (fun K => Keep.bind (Keep.discard (Keep.fr fr_solverDecide)) (fun _ => Keep.fr Fr.pure)) (fun _ _ h => h) h
  | checkFull cc b =>
    exact kp (Q := fun _ => Inv β σ) (Tr.bind (tr_solverCheckFull (σ := σ) (he cc rfl).sound.tt) (fun _ => Tr.pure (fun _ h => h))) hi
      (fun K => Keep.bind keepK_solverCheckFull (fun _ => Keep.fr Fr.pure)) (fun _ _ h => h) h
  | updateBounds cc o b n =>
    obtain ⟨J, hsd, hJ, -⟩ := hside cc rfl
    refine kp (tr_updateBounds (he cc rfl).sound (he cc rfl).mono ha (hfx cc rfl) hsd hadm) ⟨⟨hi, hJ⟩, rfl, hat⟩ (fun K => ?_) (fun _ _ h => h.1.1) h
    unfold Clingcon.updateBounds
    refine Keep.bind (Keep.fr fr_takeBounds) (fun b => ?_)
    split
    · exact Keep.fr Fr.pure
    · exact keepK_solverCheck
  | update n =>
    obtain ⟨_, W1, h1, h2⟩ := SM.bind_ok h
    obtain ⟨-, rfl⟩ := pure_iff.mp h2
    have ht := tr_solverUpdate (m := false) (β := β) (σ := σ) (L := W.book.levels) (ms := n) W _ _ h1
    refine ⟨ht.1.1, fun hr => ⟨(ht.2 ⟨hi, rfl⟩ (asm hr)).1, ?_⟩⟩
    unfold solverUpdate at h1
    obtain ⟨_, W2, h3, h4⟩ := SM.bind_ok h1
    rw [modify_iff] at h3
    subst h3
    obtain ⟨W3, W4, h5, h6⟩ := SM.bind_ok h4
    obtain ⟨rfl, rfl⟩ := get_iff.mp h5
    have hf := congrArg Prod.snd (fr_updateStep.fr _ _ _ h6)
    simp only [frame] at hf
    rw [hf]
    intro c' hc'
    have h0 := ha c' hc'
    cases c' with
    | minimize a es => exact ⟨h0.1, fun b hb => by cases hb⟩
    | sum l rhs es => exact h0
    | distinct l es => exact h0
    | nonlinear l ca x y cb z rhs => exact h0
    | disjoint l es => exact h0

theorem respects_ext (h : ∃ new, W'.log = new ++ W.log) (hr : Respects β σ W'.log) : Respects β σ W.log := by
  obtain ⟨es, he⟩ := h
  intro l v k hm
  exact hr l v k (by rw [he]; exact List.mem_append_right _ hm)

theorem init_inv {n : Int} (h : 1 < n) : Inv β σ (World.init n) := by
  refine ⟨⟨by show 0 < n; omega, ?_, ?_, ?_, ?_, ?_⟩, ?_⟩
  all_goals simp [World.init, AllHold, AllWF]

/-! ### The log only grows -/

theorem Ext'.pur {x : SM α} (h : Pur x) : Ext' m x := ⟨fun W a W' hx => by rw [h _ _ _ hx]; exact Grow.refl _ _⟩
theorem ext_solverCheck {ck : Bool} {n : Nat} : Ext' false (solverCheck cc ck n) := by
  have h1 : ∀ lv, Ext' false (checkLoop cc ck lv n) := fun lv => ext_checkLoop
  unfold solverCheck
  repeat (any_goals (first | with_reducible exact h1 _ | ext_step))
theorem ext_factLoop {ck : Bool} {t : List SEv → List Int} {fuel : Nat} : ∀ {n : Nat}, Ext' false (factLoop cc t ck fuel n)
  | 0 => by unfold factLoop; ext_auto
  | n + 1 => by
    have ih := ext_factLoop (ck := ck) (t := t) (fuel := fuel) (n := n)
    have h1 : ∀ ls, Ext' false (solverPropagate cc ls) := fun ls => ext_solverPropagate
    have h2 : Ext' false (solverCheck cc ck fuel) := ext_solverCheck
    unfold factLoop
    repeat (any_goals (first | with_reducible exact ih | with_reducible exact h1 _ | with_reducible exact h2 | ext_step))
theorem ext_undoLowers : ∀ {vs : List Nat}, Ext' m (undoLowers vs)
  | [] => by unfold undoLowers; ext_auto
  | v :: vs => by
    have ih := ext_undoLowers (vs := vs)
    unfold undoLowers undoLowerVar; ext_auto
theorem ext_undoUppers : ∀ {vs : List Nat}, Ext' m (undoUppers vs)
  | [] => by unfold undoUppers; ext_auto
  | v :: vs => by
    have ih := ext_undoUppers (vs := vs)
    unfold undoUppers undoUpperVar; ext_auto
theorem ext_solverUndo : Ext' m solverUndo := by
  have h1 : ∀ vs, Ext' m (undoLowers vs) := fun _ => ext_undoLowers
  have h2 : ∀ vs, Ext' m (undoUppers vs) := fun _ => ext_undoUppers
  unfold solverUndo levelUndo
  repeat (any_goals (first | with_reducible exact h1 _ | with_reducible exact h2 _ | ext_step))
theorem ext_splitVar {v : Nat} : Ext' m (splitVar cc v) := by unfold splitVar; ext_auto
theorem ext_splitEach : ∀ {vs : List Nat}, Ext' m (splitEach cc vs)
  | [] => by unfold splitEach; ext_auto
  | v :: vs => by
    have ih := ext_splitEach (vs := vs)
    have h1 := @ext_splitVar m cc v
    unfold splitEach; ext_auto
theorem ext_splitFirst : ∀ {vs : List Nat}, Ext' m (splitFirst cc vs)
  | [] => by unfold splitFirst; ext_auto
  | v :: vs => by
    have ih := ext_splitFirst (vs := vs)
    have h1 := @ext_splitVar m cc v
    unfold splitFirst; ext_auto
theorem ext_solverCheckFull {b : Bool} : Ext' m (solverCheckFull cc b) := by
  have h1 : ∀ vs, Ext' m (splitEach cc vs) := fun _ => ext_splitEach
  have h2 : ∀ vs, Ext' m (splitFirst cc vs) := fun _ => ext_splitFirst
  have h3 : ∀ cs, Ext' m (checkSolution cc cs) := fun _ => Ext'.pur pur_checkSolution
  unfold solverCheckFull
  repeat (any_goals (first | with_reducible exact h1 _ | with_reducible exact h2 _ | with_reducible exact h3 _ | ext_step))
/-- The log only grows. -/
theorem exec_log {op : Op} {r : Bool} (h : op.exec W = .ok (r, W')) : ∃ new, W'.log = new ++ W.log := by
  have ext : ∀ {α : Type} {x : SM α} {a : α} {W' : World}, Ext' false x → x W = .ok (a, W') → ∃ new, W'.log = new ++ W.log := fun hx h => (hx.ext _ _ _ h).1
  have same : ∀ {W' : World}, W'.log = W.log → ∃ new, W'.log = new ++ W.log := fun h => ⟨[], h⟩
  have disc : ∀ {α : Type} {x : SM α}, Ext' false x → Ext' false (do discard x; return true) := fun hx => Ext'.bind (Ext'.discard hx) (fun _ => by ext_auto)
  have thenT : ∀ {x : SM Unit}, Ext' false x → Ext' false (do x; return true) := fun hx => Ext'.bind hx (fun _ => by ext_auto)
  cases op with
  | addVar lo hi' =>
    obtain ⟨_, W1, h1, h2⟩ := SM.bind_ok h
    obtain ⟨-, rfl⟩ := pure_iff.mp h2
    obtain ⟨v, h3⟩ := discard_iff.mp h1
    unfold Clingcon.addVar at h3
    injection h3 with h3
    obtain ⟨rfl, rfl⟩ := Prod.mk.inj h3
    exact same rfl
  | addConstraint c =>
    obtain ⟨_, W1, h1, h2⟩ := SM.bind_ok h
    obtain ⟨-, rfl⟩ := pure_iff.mp h2
    obtain ⟨v, h3⟩ := discard_iff.mp h1
    obtain ⟨b, rfl, hb⟩ := addConstraint_only h3
    exact same rfl
  | removeConstraint n =>
    obtain ⟨_, W1, h1, h2⟩ := SM.bind_ok h
    obtain ⟨-, rfl⟩ := pure_iff.mp h2
    obtain ⟨b, rfl, hb⟩ := removeConstraint_only h1
    exact same rfl
  | enable => exact ⟨[], by rw [(enable_iff.mp h).2]; rfl⟩
  | fresh => exact ⟨[_], by rw [(fresh_iff.mp h).2]; rfl⟩
  | post e => exact ⟨[_], by rw [(post_iff.mp h).2]; rfl⟩
  | literal cc v x => exact ext (disc ext_getLiteral) h
  | updLiteral cc v x t => exact ext (disc ext_updateLiteral) h
  | simple cc l co v rhs s => exact ext ext_addSimple h
  | dom cc l v d => exact ext ext_addDom h
  | removeConstraints rem => exact ext (thenT (by ext_auto)) h
  | updateMinimize n l b => exact ext (thenT (by ext_auto)) h
  | propagate cc ls => exact ext ext_solverPropagate h
  | check cc b n => exact ext ext_solverCheck h
  | simplify cc t b n => exact ext (x := solverSimplify cc t b n) (by unfold solverSimplify; exact ext_factLoop) h
  | undo => exact ext (thenT ext_solverUndo) h
  | decide cc l => exact ext (disc (Ext'.pur pur_solverDecide)) h
  | checkFull cc b => exact ext (thenT ext_solverCheckFull) h
  | updateBounds cc o b n =>
    refine ext (x := Clingcon.updateBounds cc o b n) ?_ h
    have h1 := @ext_takeBounds false cc o 0
    have h2 := @ext_solverCheck cc b n
    unfold Clingcon.updateBounds; ext_auto
  | update n => exact ext (thenT (tr_solverUpdate (β := fun _ => true) (σ := fun _ => 0) (L := []) (ms := n)).ext) h

theorem admRun_run {ops : List Op} (h : AdmRun β σ ops W W') : Run ops W W' := by
  induction h with
  | nil W => exact .nil W
  | cons hp _ _ hx _ ih => exact .cons hp hx ih

theorem run_log {ops : List Op} (h : Run ops W W') : ∃ new, W'.log = new ++ W.log := by
  induction h with
  | nil W => exact ⟨[], rfl⟩
  | cons hp hx _ ih =>
    obtain ⟨n1, e1⟩ := ih
    obtain ⟨n2, e2⟩ := exec_log hx
    exact ⟨n1 ++ n2, by rw [e1, e2, List.append_assoc]⟩

theorem admRun_sound {ops : List Op} (h : AdmRun β σ ops W W') : Reach W → Inv β σ W → Adm β σ (konsB W.book) →
    Respects β σ W'.log → Inv β σ W' ∧ Adm β σ (konsB W'.book) := by
  induction h with
  | nil W => exact fun _ hi ha _ => ⟨hi, ha⟩
  | cons hp he hadm hx hrun ih =>
    intro hw hi ha hr
    obtain ⟨h1, h2⟩ := (step_sound hp he hadm hx hw.wi hw.nested hw.ti hi ha).2 (respects_ext (run_log (admRun_run hrun)) hr)
    exact ih (hw.step hp hx) h1 h2 hr

end Clingcon
