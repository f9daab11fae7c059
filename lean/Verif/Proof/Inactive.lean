import Verif.Proof.Queue

/-! The list of inactive constraints. -/
set_option linter.unusedSimpArgs false
set_option linter.unusedVariables false
namespace Clingcon
open Spec VarState

/-- Whether a constraint exists, and the constraint. -/
def acon (c : CState) : Bool × Constr := (c.alive, c.con)

/-- The constraints and the list of inactive ones. -/
def aview (b : Book) : List (Bool × Constr) × List Nat := (b.cs.map acon, b.inactive)

/-- The constraint exists. -/
def okA (K : List (Bool × Constr)) (n : Nat) : Prop := ∃ con, K[n]? = some (true, con)

/-- The constraints are the given ones; inactive constraints exist and are not objectives. -/
def SameA (K : List (Bool × Constr)) (F : List VarState × Book) : Prop :=
  (aview F.2).1 = K ∧ ∀ n ∈ (aview F.2).2, okA K n ∧ ∀ con, K[n]? = some (true, con) → ∀ a es, con ≠ .minimize a es

variable {α γ : Type} {W W' : World} {K : List (Bool × Constr)} {cc : CC}

theorem map_acon_eq {cs cs' : List CState} (hl : cs'.length = cs.length) (h : ∀ (n : Nat) c, cs[n]? = some c → ∃ c', cs'[n]? = some c' ∧ acon c' = acon c) :
    cs'.map acon = cs.map acon := by
  apply List.ext_getElem?
  intro n
  rw [List.getElem?_map, List.getElem?_map]
  cases hc : cs[n]? with
  | none =>
    have : cs'[n]? = none := by
      rw [List.getElem?_eq_none_iff] at hc ⊢; omega
    rw [this]
  | some c =>
    obtain ⟨c', h1, h2⟩ := h n c hc
    rw [h1]; simp [h2]

theorem map_acon_set {cs : List CState} {n : Nat} {c c' : CState} (hc : cs[n]? = some c) (h : acon c' = acon c) : (cs.set n c').map acon = cs.map acon := by
  refine map_acon_eq (by simp) (fun m d hd => ?_)
  by_cases hm : n = m
  · subst hm
    rw [hc] at hd; injection hd with hd; subst hd
    refine ⟨c', ?_, h⟩
    rw [List.getElem?_set_self (List.getElem?_eq_some_iff.mp hc).1]
  · exact ⟨d, by rw [List.getElem?_set_ne hm]; exact hd, rfl⟩

theorem aview_set {b : Book} {n : Nat} {c c' : CState} (hc : b.cs[n]? = some c) (h : acon c' = acon c) :
    aview { b with cs := b.cs.set n c' } = aview b := by
  unfold aview
  rw [map_acon_set hc h]

theorem SameA.of (e : aview W'.book = aview W.book) (h : SameA K (frame W)) : SameA K (frame W') := by
  unfold SameA at h ⊢
  simp only [frame] at h ⊢
  rw [e]; exact h

theorem keepA_setCS {n : Nat} {f : CState → CState} {k : CState → SM γ} (hf : ∀ c, acon (f c) = acon c) (hk : ∀ c, Keep (SameA K) (k c)) :
    Keep (SameA K) (getCS n >>= fun c => setCS n (f c) >>= fun _ => k c) := by
  refine ⟨fun W a W' hx h => ?_⟩
  obtain ⟨c, W1, h1, h2⟩ := SM.bind_ok hx
  obtain ⟨⟨hc, -⟩, rfl⟩ := getCS_iff.mp h1
  obtain ⟨_, W2, h3, h4⟩ := SM.bind_ok h2
  injection h3 with h3
  obtain ⟨-, rfl⟩ := Prod.mk.inj h3
  refine (hk c).keep _ _ _ h4 ?_
  exact h.of (aview_set hc (hf c))

theorem Keep.modA {f : Book → Book} (h : ∀ b, aview (f b) = aview b) : Keep (SameA K) (modify (fun W => { W with book := f W.book }) : SM Unit) := by
  refine ⟨fun W a W' hx hp => ?_⟩
  rw [modify_iff] at hx
  subst hx
  exact hp.of (h _)

theorem markInactive_sameA {b : Book} {l n : Nat} {vs : List VarState} (hn : okA K n) (h : SameA K (vs, b)) : SameA K (vs, b.markInactive l n) := by
  unfold Book.markInactive
  cases hc : b.cs[n]? with
  | none => exact h
  | some c =>
    dsimp only
    split
    · next hr =>
      refine ⟨?_, ?_⟩
      · rw [← h.1]
        exact map_acon_set hc rfl
      · intro k hk
        rcases List.mem_append.mp hk with hk | hk
        · exact h.2 k hk
        · rw [List.mem_singleton] at hk
          subst hk
          obtain ⟨con, hcon⟩ := hn
          refine ⟨⟨con, hcon⟩, ?_⟩
          intro con' hc'
          rw [← h.1] at hc'
          simp only [aview, List.getElem?_map, hc, Option.map_some, Option.some.injEq] at hc'
          unfold CState.removable at hr
          unfold acon at hc'
          obtain ⟨-, rfl⟩ := Prod.mk.inj hc'
          intro a es e
          rw [e] at hr
          simp at hr
    · exact h

theorem keepA_markInactiveS {n : Nat} (hn : okA K n) : Keep (SameA K) (markInactiveS n) := by
  unfold markInactiveS
  refine Keep.bind (Keep.fr Fr.curLevel) (fun l => ⟨fun W u W' h hp => ?_⟩)
  rw [modify_iff] at h
  subst h
  exact markInactive_sameA hn hp
macro_rules | `(tactic| keep_step) => `(tactic| with_reducible exact keepA_markInactiveS (by assumption))

theorem keepA_sumPropagate {cc : CC} {n : Nat} {ck t : Bool} {l r : Int} {es : List (Int × Nat)} (hn : okA K n) : Keep (SameA K) (sumPropagate cc n ck t l r es) := by
  unfold sumPropagate; keep_auto
macro_rules | `(tactic| keep_step) => `(tactic| with_reducible exact keepA_sumPropagate (by assumption))

theorem keepA_nonlinearPropagate {cc : CC} {n : Nat} {ca cb r : Int} {x y z : Nat} (hn : okA K n) : Keep (SameA K) (nonlinearPropagate cc n ca x y cb z r) := by
  unfold nonlinearPropagate; keep_auto
macro_rules | `(tactic| keep_step) => `(tactic| with_reducible exact keepA_nonlinearPropagate (by assumption))

theorem distinctUpdate_acon {es : List (List (Int × Nat) × Int)} : ∀ {is : List Nat} {c c' : CState} {W W' : World},
    distinctUpdate es is c W = .ok (c', W') → acon c' = acon c
  | [], c, c', W, W', h => by
    unfold distinctUpdate at h
    obtain ⟨rfl, -⟩ := pure_iff.mp h
    rfl
  | i :: is, c, c', W, W', h => by
    unfold distinctUpdate at h
    cases he : es[i]? with
    | none => rw [he] at h; cases h
    | some e =>
    cases ho : c.assigned[i]? with
    | none => rw [he, ho] at h; cases h
    | some o =>
      rw [he, ho] at h
      obtain ⟨_, W1, _, h⟩ := SM.bind_ok h
      obtain ⟨_, W2, _, h⟩ := SM.bind_ok h
      obtain ⟨_, W3, _, h⟩ := SM.bind_ok h
      have := distinctUpdate_acon h
      exact this

theorem keepA_distinctPropagate {cc : CC} {n : Nat} {l : Int} {es : List (List (Int × Nat) × Int)} : Keep (SameA K) (distinctPropagate cc n l es) := by
  unfold distinctPropagate
  refine ⟨fun W a W' hx h => ?_⟩
  obtain ⟨c, W1, h1, h2⟩ := SM.bind_ok hx
  obtain ⟨⟨hcs, hal⟩, rfl⟩ := getCS_iff.mp h1
  obtain ⟨c', W2, h3, h4⟩ := SM.bind_ok h2
  obtain ⟨_, W3, h5, h6⟩ := SM.bind_ok h4
  injection h5 with h5
  obtain ⟨-, rfl⟩ := Prod.mk.inj h5
  have hf : W2.book = W1.book := congrArg Prod.snd (fr_distinctUpdate.fr _ _ _ h3)
  refine Keep.keep (P := SameA K) ?_ _ _ _ h6 ?_
  · have hfin : Keep (SameA K) (getCS n >>= fun c => setCS n c.clearTodo >>= fun _ => (Pure.pure true : SM Bool)) :=
      keepA_setCS (f := fun c => c.clearTodo) (fun _ => rfl) (fun _ => Keep.fr Fr.pure)
    refine Keep.bind (Keep.fr fr_distinctTodo) (fun b => ?_)
    split
    · exact Keep.fr Fr.pure
    · refine Keep.bind (Keep.fr fr_distinctTodo) (fun b => ?_)
      split
      · exact Keep.fr Fr.pure
      · exact hfin
  · refine h.of ?_
    show aview { W2.book with cs := W2.book.cs.set n c' } = aview W1.book
    rw [hf]
    exact aview_set hcs (distinctUpdate_acon h3)
macro_rules | `(tactic| keep_step) => `(tactic| with_reducible exact keepA_distinctPropagate)

theorem keepA_disjointPropagate {cc : CC} {n : Nat} {l : Int} : Keep (SameA K) (disjointPropagate cc n l) := by
  unfold disjointPropagate
  refine Keep.bind (Keep.fr Fr.getCS) (fun c => ?_)
  refine Keep.bind (Keep.fr fr_disjointLoad) (fun is => ?_)
  refine Keep.bind (Keep.fr fr_disjointRun) (fun p => ?_)
  refine keepA_setCS (f := fun c => { c with intervals := p.2, forceUpdate := false }) (fun _ => rfl) (fun c' => ?_)
  split
  · exact Keep.fr Fr.pure
  · refine Keep.bind (Keep.fr fr_disjointRun) (fun q => ?_)
    exact keepA_setCS (f := fun c => { c with intervals := q.2 }) (fun _ => rfl) (fun _ => Keep.fr Fr.pure)
macro_rules | `(tactic| keep_step) => `(tactic| with_reducible exact keepA_disjointPropagate)

theorem keepA_propagateCS {cc : CC} {ck : Bool} {n : Nat} (hn : okA K n) : Keep (SameA K) (propagateCS cc ck n) := by
  unfold propagateCS; keep_auto

/-- The change of the book made by a computation keeps the constraints. -/
theorem Keep.sameA {x : SM α} (h : ∀ W a W', x W = .ok (a, W') → aview W'.book = aview W.book) : Keep (SameA K) x :=
  ⟨fun W a W' hx hp => hp.of (h W a W' hx)⟩

theorem keepA_updateLower {l v : Nat} {x : Int} : Keep (SameA K) (updateLower l v x) :=
  Keep.sameA (fun W u W' h => by obtain ⟨y, -, e⟩ := updateLower_frame h; have e := congrArg Prod.snd e; simp only [frame] at e; rw [e]; rfl)
theorem keepA_updateUpper {l v : Nat} {x : Int} : Keep (SameA K) (updateUpper l v x) :=
  Keep.sameA (fun W u W' h => by obtain ⟨y, -, e⟩ := updateUpper_frame h; have e := congrArg Prod.snd e; simp only [frame] at e; rw [e]; rfl)
macro_rules | `(tactic| keep_step) => `(tactic| with_reducible exact keepA_updateLower)
macro_rules | `(tactic| keep_step) => `(tactic| with_reducible exact keepA_updateUpper)
theorem keepA_updateUpperLit {cc : CC} {l v : Nat} {lit value sl : Int} : Keep (SameA K) (updateUpperLit cc l v lit value sl) := by
  unfold updateUpperLit; keep_auto
theorem keepA_updateLowerLit {cc : CC} {l v : Nat} {lit value sl : Int} : Keep (SameA K) (updateLowerLit cc l v lit value sl) := by
  unfold updateLowerLit; keep_auto
macro_rules | `(tactic| keep_step) => `(tactic| with_reducible exact keepA_updateUpperLit)
macro_rules | `(tactic| keep_step) => `(tactic| with_reducible exact keepA_updateLowerLit)
theorem keepA_propagateFacts {cc : CC} {l : Nat} : ∀ {fs : List (Int × Nat × Int × Int)}, Keep (SameA K) (propagateFacts cc l fs)
  | [] => by unfold propagateFacts; keep_auto
  | (a, b, c, d) :: fs => by
    have ih := keepA_propagateFacts (cc := cc) (l := l) (fs := fs)
    unfold propagateFacts; keep_auto
macro_rules | `(tactic| keep_step) => `(tactic| with_reducible exact keepA_propagateFacts)
theorem keepA_updateDomain {cc : CC} {lit : Int} : Keep (SameA K) (updateDomain cc lit) := by unfold updateDomain; keep_auto
macro_rules | `(tactic| keep_step) => `(tactic| with_reducible exact keepA_updateDomain)
theorem keepA_integrateFacts {cc : CC} : Keep (SameA K) (integrateFacts cc) := by unfold integrateFacts; keep_auto
macro_rules | `(tactic| keep_step) => `(tactic| with_reducible exact keepA_integrateFacts)



theorem markTodo_aview {b : Book} {n : Nat} : aview (b.markTodo n) = aview b := by
  unfold Book.markTodo
  cases hc : b.cs[n]? with
  | none => rfl
  | some c =>
    dsimp only
    split
    · rfl
    · split
      · rfl
      · exact aview_set (c' := { c with todo := true }) hc rfl

theorem update_acon {c : CState} {i d : Int} {r : Bool × CState} (h : c.update i d = .ok r) : acon r.2 = acon c := by
  unfold CState.update at h
  have hs : ∀ {r : Bool × CState}, c.updateSum i d = .ok r → acon r.2 = acon c := by
    intro r h
    unfold CState.updateSum at h
    split at h
    · cases h
    · split at h <;> (injection h with h; subst h; rfl)
  split at h
  · exact hs h
  · exact hs h
  · injection h with h; subst h
    unfold CState.markTodoElem CState.markDirty acon
    split_ifs <;> rfl
  · injection h with h; subst h; rfl
  · injection h with h; subst h; rfl

theorem updateWatches_aview {level var : Nat} {d : Int} : ∀ {ws : List (Int × Nat)} {b : Book} {p : List (Int × Nat) × Book},
    Book.updateWatches level var d ws b = .ok p → aview p.2 = aview b
  | [], b, p, h => by
    injection h with h; subst h
    rfl
  | (i, n) :: ws, b, p, h => by
    unfold Book.updateWatches at h
    cases hc : b.cs[n]? with
    | none => rw [hc] at h; cases h
    | some c =>
      rw [hc] at h
      dsimp only at h
      split at h
      · exact (updateWatches_aview h).trans rfl
      · cases hu : c.update i d with
        | error e => rw [hu] at h; cases h
        | ok r =>
          rw [hu] at h
          have e0 : aview { b with cs := b.cs.set n r.2 } = aview b := aview_set hc (update_acon hu)
          simp only [bind, Except.bind] at h
          split at h
          · cases h
          · next q hx =>
            simp only [pure, Except.pure, Except.ok.injEq] at h
            subst h
            split at hx
            · exact ((updateWatches_aview hx).trans markTodo_aview).trans e0
            · exact (updateWatches_aview hx).trans e0

theorem updateConstraints_aview {level var : Nat} {d : Int} {b b' : Book} (h : Book.updateConstraints level var d b = .ok b') : aview b' = aview b := by
  unfold Book.updateConstraints at h
  cases hw : b.watches[var]? with
  | none => rw [hw] at h; cases h
  | some ws =>
    rw [hw] at h
    dsimp only at h
    cases hu : Book.updateWatches level var d ws b with
    | error e => rw [hu] at h; cases h
    | ok p =>
      rw [hu] at h
      simp only [bind, Except.bind, pure, Except.pure, Except.ok.injEq] at h
      subst h
      exact (updateWatches_aview hu)

theorem updateUppers_aview {level : Nat} : ∀ {vs : List Nat} {b b' : Book}, Book.updateUppers level vs b = .ok b' → aview b' = aview b
  | [], b, b', h => by injection h with h; subst h; rfl
  | v :: vs, b, b', h => by
    unfold Book.updateUppers at h
    cases hb : Book.updateConstraints level v (b.udiff.getD v 0) b with
    | error e => rw [hb] at h; cases h
    | ok b1 =>
      rw [hb] at h
      exact (updateUppers_aview (b := { b1 with udiff := b1.udiff.set v 0 }) h).trans (show aview b1 = aview b from updateConstraints_aview hb)

theorem updateLowers_aview {level : Nat} : ∀ {vs : List Nat} {b b' : Book}, Book.updateLowers level vs b = .ok b' → aview b' = aview b
  | [], b, b', h => by injection h with h; subst h; rfl
  | v :: vs, b, b', h => by
    unfold Book.updateLowers at h
    cases hb : Book.updateConstraints level v (b.ldiff.getD v 0) b with
    | error e => rw [hb] at h; cases h
    | ok b1 =>
      rw [hb] at h
      exact (updateLowers_aview (b := { b1 with ldiff := b1.ldiff.set v 0 }) h).trans (show aview b1 = aview b from updateConstraints_aview hb)

theorem a_deliver {level : Nat} : Keep (SameA K) (deliver level) := by
  refine Keep.sameA (fun W u W' h => ?_)
  unfold deliver at h
  obtain ⟨W1, W2, h1, h2⟩ := SM.bind_ok h
  obtain ⟨rfl, rfl⟩ := get_iff.mp h1
  obtain ⟨b1, W3, h3, h4⟩ := SM.bind_ok h2
  obtain ⟨h3, rfl⟩ := liftRes_iff.mp h3
  obtain ⟨b2, W4, h5, h6⟩ := SM.bind_ok h4
  obtain ⟨g5, rfl⟩ := liftRes_iff.mp h5
  rw [modify_iff] at h6
  subst h6
  exact (updateLowers_aview g5).trans (updateUppers_aview h3)

theorem unmarkTodo_acon : ∀ {ns : List Nat} {cs : List CState}, (Book.unmarkTodo cs ns).map acon = cs.map acon
  | [], _ => rfl
  | n :: ns, cs => by
    show (Book.unmarkTodo (cs.modify n (fun c => { c with todo := false })) ns).map acon = _
    rw [unmarkTodo_acon]
    refine map_acon_eq (by simp) (fun j c hc => ?_)
    rw [List.getElem?_modify, hc]
    refine ⟨_, rfl, ?_⟩
    split_ifs <;> rfl

theorem activate_acon : ∀ {ns : List Nat} {cs : List CState}, (Book.activate cs ns).map acon = cs.map acon
  | [], _ => rfl
  | n :: ns, cs => by
    show (Book.activate (cs.modify n (fun c => { c with inactive := 0 })) ns).map acon = _
    rw [activate_acon]
    refine map_acon_eq (by simp) (fun j c hc => ?_)
    rw [List.getElem?_modify, hc]
    refine ⟨_, rfl, ?_⟩
    split_ifs <;> rfl

theorem a_checkOne {ck : Bool} {n : Nat} : Keep (SameA K) (checkOne cc ck n) := by
  unfold checkOne
  refine ⟨fun W a W' h hp => ?_⟩
  obtain ⟨c, W1, h1, h2⟩ := SM.bind_ok h
  obtain ⟨⟨hc, hal⟩, rfl⟩ := getCS_iff.mp h1
  obtain ⟨_, W2, h3, h4⟩ := SM.bind_ok h2
  injection h3 with h3
  obtain ⟨-, rfl⟩ := Prod.mk.inj h3
  have hn : okA K n := ⟨c.con, by rw [← hp.1]; simp [aview, frame, hc, acon, hal]⟩
  have hk : Keep (SameA K) (qFalse cc c.con.lit >>= fun f => if (!f) = true then propagateCS cc ck n else (markInactiveS n >>= fun _ => Pure.pure true)) := by
    refine Keep.bind (Keep.fr Fr.qFalse) (fun b => ?_)
    split
    · exact keepA_propagateCS hn
    · exact Keep.bind (keepA_markInactiveS hn) (fun _ => Keep.fr Fr.pure)
  exact hk.keep _ _ _ h4 (hp.of (aview_set (c' := { c with todo := false }) hc rfl))

theorem a_checkTodo {ck : Bool} : ∀ {ns : List Nat}, Keep (SameA K) (checkTodo cc ck ns)
  | [] => by unfold checkTodo; exact Keep.fr Fr.pure
  | n :: ns => by
    unfold checkTodo
    refine Keep.bind a_checkOne (fun b => ?_)
    split
    · refine Keep.bind (Keep.sameA (fun W u W' h => ?_)) (fun _ => Keep.fr Fr.pure)
      rw [modify_iff] at h
      subst h
      unfold aview
      simp only
      rw [unmarkTodo_acon]
    · exact a_checkTodo

theorem keepA_modify {f : World → World} (h : ∀ W, aview (f W).book = aview W.book) : Keep (SameA K) (modify f) :=
  ⟨fun W u W' hx hk => by rw [modify_iff] at hx; subst hx; exact hk.of (h W)⟩

theorem a_checkLoop {ck : Bool} {level : Nat} : ∀ {n : Nat}, Keep (SameA K) (checkLoop cc ck level n)
  | 0 => ⟨fun W a W' h => by cases h⟩
  | n + 1 => by
    have ih := a_checkLoop (ck := ck) (level := level) (n := n)
    unfold checkLoop
    refine Keep.bind keepA_integrateFacts (fun b => ?_)
    split
    · exact Keep.fr Fr.pure
    refine Keep.bind a_deliver (fun _ => ?_)
    refine Keep.bind (Keep.fr Fr.get) (fun W => ?_)
    refine Keep.bind a_checkTodo (fun r => ?_)
    refine Keep.bind (keepA_modify (fun _ => rfl)) (fun _ => ?_)
    refine Keep.bind (Keep.fr Fr.get) (fun W => ?_)
    split
    · exact Keep.fr Fr.pure
    · exact ih

theorem a_solverCheck {ck : Bool} {n : Nat} : Keep (SameA K) (solverCheck cc ck n) := by
  unfold solverCheck
  refine Keep.bind (Keep.fr Fr.curLevel) (fun l => Keep.bind (Keep.fr Fr.get) (fun W => ?_))
  split
  · exact Keep.fr Fr.pure
  · exact a_checkLoop

theorem markTodo_foldl_aview : ∀ {ns : List Nat} {b : Book}, aview (ns.foldl Book.markTodo b) = aview b
  | [], _ => rfl
  | n :: ns, b => by rw [List.foldl_cons, markTodo_foldl_aview, markTodo_aview]

theorem keepA_pushLevel {n : Nat} : Keep (SameA K) (pushLevel n) := by
  unfold pushLevel
  exact Keep.bind (Keep.fr Fr.curLevel) (fun l => Keep.whenS (keepA_modify (fun _ => rfl)))

theorem a_propagateLits : ∀ {ls : List Int}, Keep (SameA K) (propagateLits cc ls)
  | [] => Keep.fr Fr.pure
  | l :: ls => by
    unfold propagateLits propagateLit
    refine Keep.bind (Keep.bind (keepA_modify (fun W => markTodo_foldl_aview)) (fun _ => keepA_updateDomain)) (fun b => ?_)
    split
    · exact Keep.fr Fr.pure
    · exact a_propagateLits

theorem a_solverPropagate {ls : List Int} : Keep (SameA K) (solverPropagate cc ls) := by
  unfold solverPropagate
  exact Keep.bind keepA_pushLevel (fun _ => a_propagateLits)

theorem a_factLoop {ck : Bool} {t : List SEv → List Int} {fuel : Nat} : ∀ {n : Nat}, Keep (SameA K) (factLoop cc t ck fuel n)
  | 0 => Keep.fr Fr.ub
  | n + 1 => by
    have ih := a_factLoop (ck := ck) (t := t) (fuel := fuel) (n := n)
    unfold factLoop
    refine Keep.bind (Keep.fr (by fr_auto)) (fun b => ?_)
    split
    · exact Keep.fr Fr.pure
    refine Keep.bind (Keep.fr (by fr_auto)) (fun W => ?_)
    dsimp only
    split
    · exact Keep.fr Fr.pure
    refine Keep.bind a_solverPropagate (fun b => ?_)
    split
    · exact Keep.fr Fr.pure
    refine Keep.bind (keepA_modify (fun _ => rfl)) (fun _ => ?_)
    refine Keep.bind a_solverCheck (fun b => ?_)
    split
    · exact Keep.fr Fr.pure
    · exact ih

theorem undo_acon {c : CState} {i d : Int} : acon (c.undo i d) = acon c := by
  unfold CState.undo
  split
  · unfold CState.undoSum; split_ifs <;> rfl
  · unfold CState.undoSum; split_ifs <;> rfl
  · unfold CState.clearTodo CState.markDirty; split_ifs <;> rfl
  · rfl
  · rfl

theorem undoWatches_acon {d : Int} : ∀ {ws : List (Int × Nat)} {cs : List CState}, (Book.undoWatches d ws cs).map acon = cs.map acon
  | [], _ => rfl
  | (i, n) :: ws, cs => by
    show (Book.undoWatches d ws (cs.modify n (fun c => c.undo i d))).map acon = _
    rw [undoWatches_acon]
    refine map_acon_eq (by simp) (fun j c hc => ?_)
    rw [List.getElem?_modify, hc]
    refine ⟨_, rfl, ?_⟩
    split_ifs
    · exact undo_acon
    · rfl

theorem keepA_undoLowers : ∀ {vs : List Nat}, Keep (SameA K) (undoLowers vs)
  | [] => Keep.fr Fr.pure
  | v :: vs => by
    unfold undoLowers undoLowerVar
    refine Keep.bind (Keep.sameA fun W u W' h => ?_) (fun _ => keepA_undoLowers)
    simp only [smok] at h
    obtain ⟨y, W1, ⟨hv, rfl⟩, y', W2, ⟨hp, rfl⟩, _, W3, rfl, rfl⟩ := h
    unfold aview
    simp only
    split_ifs
    · rw [undoWatches_acon]
    · rfl

theorem keepA_undoUppers : ∀ {vs : List Nat}, Keep (SameA K) (undoUppers vs)
  | [] => Keep.fr Fr.pure
  | v :: vs => by
    unfold undoUppers undoUpperVar
    refine Keep.bind (Keep.sameA fun W u W' h => ?_) (fun _ => keepA_undoUppers)
    simp only [smok] at h
    obtain ⟨y, W1, ⟨hv, rfl⟩, y', W2, ⟨hp, rfl⟩, _, W3, rfl, rfl⟩ := h
    unfold aview
    simp only
    split_ifs
    · rw [undoWatches_acon]
    · rfl

theorem a_solverUndo : Keep (SameA K) solverUndo := by
  unfold solverUndo levelUndo
  refine Keep.bind (Keep.fr (by fr_auto)) (fun l => ?_)
  refine Keep.bind (Keep.fr (by fr_auto)) (fun _ => ?_)
  refine Keep.bind ?_ (fun _ => ?_)
  · refine Keep.bind (Keep.fr (by fr_auto)) (fun W => ?_)
    refine Keep.bind keepA_undoLowers (fun _ => ?_)
    refine Keep.bind (keepA_modify (fun _ => rfl)) (fun _ => ?_)
    refine Keep.bind (Keep.fr (by fr_auto)) (fun W => ?_)
    refine Keep.bind keepA_undoUppers (fun _ => ?_)
    refine Keep.bind (keepA_modify (fun _ => rfl)) (fun _ => ⟨fun W u W' h hq => ?_⟩)
    rw [modify_iff] at h
    subst h
    refine ⟨?_, fun n hn => hq.2 n (List.mem_of_mem_take hn)⟩
    rw [← hq.1]
    show (Book.unmarkTodo (Book.activate _ _) _).map acon = _
    rw [unmarkTodo_acon, activate_acon]
    rfl
  · exact Keep.bind (keepA_modify (fun _ => rfl)) (fun _ => Keep.fr (by fr_auto))

theorem keepA_splitFirst : ∀ {vs : List Nat}, Keep (SameA K) (splitFirst cc vs)
  | [] => Keep.fr Fr.pure
  | v :: vs => by
    unfold splitFirst
    refine Keep.bind (Keep.fr fr_splitVar) (fun b => ?_)
    split
    · exact Keep.bind (keepA_modify (fun _ => rfl)) (fun _ => Keep.fr Fr.pure)
    · exact keepA_splitFirst

theorem keepA_solverCheckFull {b : Bool} : Keep (SameA K) (solverCheckFull cc b) := by
  unfold solverCheckFull
  refine Keep.bind (Keep.fr (by fr_auto)) (fun W => ?_)
  dsimp only
  refine Keep.bind ?_ (fun s => ?_)
  · split
    · exact Keep.fr fr_splitEach
    · exact keepA_splitFirst
  · exact Keep.fr (by fr_auto)

/-- Inactive constraints exist and are not objectives. -/
def IA (b : Book) : Prop := ∀ n ∈ b.inactive, ∃ c, b.cs[n]? = some c ∧ c.alive = true ∧ ∀ a es, c.con ≠ .minimize a es

theorem IA.sameA (h : IA W.book) : SameA (W.book.cs.map acon) (frame W) := by
  refine ⟨rfl, fun n hn => ?_⟩
  obtain ⟨c, h1, h2, h3⟩ := h n hn
  refine ⟨⟨c.con, by simp [h1, acon, h2]⟩, fun con hc a es e => ?_⟩
  simp [h1, acon, h2] at hc
  exact h3 a es (hc.trans e)

theorem SameA.ia (h : SameA K (frame W)) : IA W.book := by
  intro n hn
  obtain ⟨⟨con, h1⟩, h2⟩ := h.2 n hn
  have h1' := h1
  rw [← h.1] at h1
  simp only [aview, frame, List.getElem?_map] at h1
  cases hc : W.book.cs[n]? with
  | none => rw [hc] at h1; cases h1
  | some c =>
    rw [hc] at h1
    simp [acon] at h1
    exact ⟨c, rfl, h1.1, fun a es e => h2 con h1' a es (h1.2.symm.trans e)⟩

theorem ia_keep {x : SM α} {a : α} (hk : ∀ K, Keep (SameA K) x) (hx : x W = .ok (a, W')) (h : IA W.book) : IA W'.book :=
  SameA.ia ((hk _).keep _ _ _ hx h.sameA)

theorem ia_addConstraint {c : Constr} {n : Nat} (h : addConstraint c W = .ok (n, W')) (hq : IA W.book) : IA W'.book := by
  unfold addConstraint at h
  obtain ⟨st, W1, h1, h2⟩ := SM.bind_ok h
  obtain ⟨rfl, -, hal, -, htd, -⟩ := initState_eff h1
  obtain ⟨W2, W3, h3, h4⟩ := SM.bind_ok h2
  obtain ⟨rfl, rfl⟩ := get_iff.mp h3
  dsimp only at h4
  obtain ⟨_, W4, h5, h6⟩ := SM.bind_ok h4
  rw [modify_iff] at h5
  subst h5
  obtain ⟨_, W5, h7, h8⟩ := SM.bind_ok h6
  obtain ⟨e1, -, -, e4⟩ := addVarWatches_eff h7
  obtain ⟨_, W6, h9, h10⟩ := SM.bind_ok h8
  rw [modify_iff] at h9
  obtain ⟨-, rfl⟩ := pure_iff.mp h10
  subst h9
  have h0 : IA W5.book := by
    intro k hk
    rw [e1] at hk ⊢
    obtain ⟨c', g1, g2⟩ := hq k hk
    exact ⟨c', by simp only; rw [List.getElem?_append_left (List.getElem?_eq_some_iff.mp g1).1]; exact g1, g2⟩
  exact SameA.ia (W := { W5 with book := W5.book.markTodo _ }) (h0.sameA.of (W' := { W5 with book := W5.book.markTodo _ }) markTodo_aview)

theorem ia_removeConstraint {n : Nat} {u : Unit} (h : removeConstraint n W = .ok (u, W')) (hn : ∃ c a es, W.book.cs[n]? = some c ∧ c.con = .minimize a es) (hq : IA W.book) :
    IA W'.book := by
  unfold Clingcon.removeConstraint at h
  obtain ⟨W1, W2, h1, h2⟩ := SM.bind_ok h
  obtain ⟨e0, e0'⟩ := get_iff.mp h1
  rw [e0, e0'] at h2
  obtain ⟨c, a, es, hc, hco⟩ := hn
  rw [hc] at h2
  obtain ⟨_, W3, h3, h4⟩ := SM.bind_ok h2
  obtain ⟨l, W4, h5, h6⟩ := SM.bind_ok h4
  simp only [smok] at h5 h6
  obtain ⟨ls, hls, rfl⟩ := h5
  obtain ⟨_, W5, ⟨hl, rfl⟩, rfl⟩ := h6
  obtain ⟨e1, e2, e3, e4⟩ := removeVarWatches_eff h3
  have hcs : W5.book.cs = W.book.cs := by rw [e1]
  have hia : W5.book.inactive = W.book.inactive := by rw [e1]
  intro k hk
  simp only [Book.removeMarks, hcs, hc, hia] at hk ⊢
  have hk' : k ∈ W.book.inactive := by
    split_ifs at hk
    · exact List.mem_of_mem_erase hk
    · exact hk
  obtain ⟨c', g1, g2, g3⟩ := hq k hk'
  have hne : n ≠ k := by
    intro e
    subst e
    rw [hc] at g1
    injection g1 with g1
    subst g1
    exact g3 a es hco
  exact ⟨c', by rw [List.getElem?_set_ne hne]; exact g1, g2, g3⟩

theorem ia_removeConstraints {rem : Nat → Bool} {b : Book} (hq : IA b) : IA (b.removeConstraints rem) := by
  intro k hk
  have hk : k ∈ b.inactive.filter (fun n => !rem n) := hk
  obtain ⟨h1, h2⟩ := List.mem_filter.mp hk
  obtain ⟨c', g1, g2, g3⟩ := hq k h1
  have hm : ((Book.unmarkTodo (Book.activate b.cs b.inactive) b.todo).map acon)[k]? = some (acon c') := by
    rw [unmarkTodo_acon, activate_acon, List.getElem?_map, g1]; rfl
  rw [List.getElem?_map] at hm
  show ∃ c, ((Book.unmarkTodo (Book.activate b.cs b.inactive) b.todo).zipIdx.map (fun p => if rem p.2 then { p.1 with alive := false } else p.1))[k]? = some c ∧ _
  rw [List.getElem?_map, List.getElem?_zipIdx]
  cases hc : (Book.unmarkTodo (Book.activate b.cs b.inactive) b.todo)[k]? with
  | none => rw [hc] at hm; cases hm
  | some c =>
    rw [hc] at hm
    simp [acon] at hm
    have h2 : rem k = false := by simpa using h2
    refine ⟨c, by simp [h2], hm.1.trans g2, fun a es e => g3 a es (hm.2.symm.trans e)⟩

theorem ia_step {op : Op} {r : Bool} (hn : ∀ n, op = .removeConstraint n → ∃ c a es, W.book.cs[n]? = some c ∧ c.con = .minimize a es) (h : op.exec W = .ok (r, W'))
    (hq : IA W.book) : IA W'.book := by
  cases op with
  | addVar lo hi' =>
    obtain ⟨_, W1, h1, h2⟩ := SM.bind_ok h
    obtain ⟨-, rfl⟩ := pure_iff.mp h2
    obtain ⟨v, h3⟩ := discard_iff.mp h1
    injection h3 with h3
    obtain ⟨-, rfl⟩ := Prod.mk.inj h3
    exact hq
  | addConstraint c =>
    obtain ⟨_, W1, h1, h2⟩ := SM.bind_ok h
    obtain ⟨-, rfl⟩ := pure_iff.mp h2
    obtain ⟨v, h3⟩ := discard_iff.mp h1
    exact ia_addConstraint h3 hq
  | removeConstraint n =>
    obtain ⟨_, W1, h1, h2⟩ := SM.bind_ok h
    obtain ⟨-, rfl⟩ := pure_iff.mp h2
    exact ia_removeConstraint h1 (hn n rfl) hq
  | removeConstraints rem =>
    obtain ⟨_, W1, h1, h2⟩ := SM.bind_ok h
    obtain ⟨-, rfl⟩ := pure_iff.mp h2
    obtain rfl := modify_iff.mp h1
    exact ia_removeConstraints hq
  | updateMinimize n l b =>
    refine ia_keep (fun K => Keep.bind (keepA_modify (fun W => ?_)) (fun _ => Keep.fr Fr.pure)) h hq
    unfold Book.updateMinimize
    split_ifs
    · exact markTodo_aview (b := { W.book with minimizeBound := some b, minimizeLevel := l })
    · exact markTodo_aview (b := { W.book with minimizeLevel := l })
    · rfl
  | enable => rw [(enable_iff.mp h).2]; exact hq
  | fresh => exact ia_keep (fun K => Keep.fr fr_fresh) h hq
  | post e => exact ia_keep (fun K => Keep.fr fr_post) h hq
  | literal cc v x => exact ia_keep (fun K => Keep.bind (Keep.discard (Keep.fr fr_getLiteral)) (fun _ => Keep.fr Fr.pure)) h hq
  | updLiteral cc v x t => exact ia_keep (fun K => Keep.bind (Keep.discard (Keep.fr fr_updateLiteral)) (fun _ => Keep.fr Fr.pure)) h hq
  | simple cc l co v r s => exact ia_keep (fun K => Keep.fr fr_addSimple) h hq
  | dom cc l v d => exact ia_keep (fun K => Keep.fr fr_addDom) h hq
  | propagate cc ls => exact ia_keep (fun K => a_solverPropagate) h hq
  | check cc b n => exact ia_keep (fun K => a_solverCheck) h hq
  | simplify cc t b n =>
    refine ia_keep (x := solverSimplify cc t b n) (fun K => ?_) h hq
    unfold solverSimplify
    exact a_factLoop
  | undo => exact ia_keep (fun K => Keep.bind a_solverUndo (fun _ => Keep.fr Fr.pure)) h hq
  | decide cc l => exact ia_keep (fun K => Keep.bind (Keep.discard (Keep.fr fr_solverDecide)) (fun _ => Keep.fr Fr.pure)) h hq
  | checkFull cc b => exact ia_keep (fun K => Keep.bind keepA_solverCheckFull (fun _ => Keep.fr Fr.pure)) h hq
  | updateBounds cc o b n =>
    refine ia_keep (x := updateBounds cc o b n) (fun K => ?_) h hq
    unfold Clingcon.updateBounds
    refine Keep.bind (Keep.fr fr_takeBounds) (fun b => ?_)
    split
    · exact Keep.fr Fr.pure
    · exact a_solverCheck
  | update n =>
    refine ia_keep (fun K => Keep.bind ?_ (fun _ => Keep.fr Fr.pure)) h hq
    unfold solverUpdate
    exact Keep.bind (keepA_modify (fun _ => rfl)) (fun _ => Keep.bind (Keep.fr Fr.get) (fun W => Keep.fr fr_updateStep))

end Clingcon
