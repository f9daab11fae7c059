import Verif.Proof.Copy

/-! The members of constraint states that constraints of their kind do not have are not used. -/
set_option linter.unusedSimpArgs false
set_option linter.unusedVariables false
namespace Clingcon
open Spec VarState

/-- The members of distinct constraints have their initial values. -/
def noDistinct (c : CState) : Bool :=
  c.assigned.isEmpty && c.dirty.isEmpty && c.inDirty.isEmpty && c.todoLower.isEmpty && c.todoUpper.isEmpty && c.inTodoLower.isEmpty && c.inTodoUpper.isEmpty &&
    c.lowerSet.isEmpty && c.upperSet.isEmpty

/-- The members of disjoint constraints have their initial values. -/
def noDisjoint (c : CState) : Bool := c.intervals.isEmpty && c.forceUpdate

/-- The members of linear constraints have their initial values. -/
def noSum (c : CState) : Bool := decide (c.lower = 0) && decide (c.upper = 0)

/-- The members that constraints of this kind do not have have their initial values. -/
def tidy (c : CState) : Bool :=
  match c.con with
  | .sum _ _ _ => noDistinct c && noDisjoint c
  | .minimize _ _ => noDistinct c && noDisjoint c
  | .distinct _ _ => noSum c && noDisjoint c
  | .nonlinear _ _ _ _ _ _ _ => noSum c && noDistinct c && noDisjoint c
  | .disjoint _ _ => noSum c && noDistinct c

theorem copy_tidy {c : CState} (h : tidy c = true) : c.copy = c := by
  obtain ⟨con, al, td, ia, lo, up, a1, a2, a3, a4, a5, a6, a7, a8, a9, iv, fu⟩ := c
  cases con <;> simp [tidy, noDistinct, noDisjoint, noSum] at h <;> simp [CState.copy, h]

/-- A constraint, and whether members it does not have are unused. -/
def tcon (c : CState) : Constr × Bool := (c.con, tidy c)

/-- The constraints with this information are the given ones. -/
def SameT (K : List (Constr × Bool)) (F : List VarState × Book) : Prop := F.2.cs.map tcon = K

variable {α γ : Type} {W W' : World} {K : List (Constr × Bool)} {cc : CC}

theorem map_tcon_eq {cs cs' : List CState} (hl : cs'.length = cs.length) (h : ∀ (n : Nat) c, cs[n]? = some c → ∃ c', cs'[n]? = some c' ∧ tcon c' = tcon c) :
    cs'.map tcon = cs.map tcon := by
  apply List.ext_getElem?
  intro n
  rw [List.getElem?_map, List.getElem?_map]
  cases hc : cs[n]? with
  | none =>
    have : cs'[n]? = none := by
      rw [List.getElem?_eq_none_iff] at hc ⊢; omega
    rw [this]
  | some c =>
    obtain ⟨c', h1, h2⟩ := h n c hc
    rw [h1]; simp [h2]

theorem map_tcon_set {cs : List CState} {n : Nat} {c c' : CState} (hc : cs[n]? = some c) (h : tcon c' = tcon c) : (cs.set n c').map tcon = cs.map tcon := by
  refine map_tcon_eq (by simp) (fun m d hd => ?_)
  by_cases hm : n = m
  · subst hm
    rw [hc] at hd; injection hd with hd; subst hd
    refine ⟨c', ?_, h⟩
    rw [List.getElem?_set_self (List.getElem?_eq_some_iff.mp hc).1]
  · exact ⟨d, by rw [List.getElem?_set_ne hm]; exact hd, rfl⟩

/-- What is kept of the constraint states. -/
def tview (b : Book) : List (Constr × Bool) := b.cs.map tcon

theorem tview_set {b : Book} {n : Nat} {c c' : CState} (hc : b.cs[n]? = some c) (h : tcon c' = tcon c) :
    tview { b with cs := b.cs.set n c' } = tview b := map_tcon_set hc h

theorem SameT.of (e : tview W'.book = tview W.book) (h : SameT K (frame W)) : SameT K (frame W') := e.trans h

theorem SameT.con {n : Nat} {c : CState} (h : SameT K (frame W)) (hc : W.book.cs[n]? = some c) : K[n]? = some (tcon c) := by
  rw [← h]
  show (W.book.cs.map tcon)[n]? = _
  rw [List.getElem?_map, hc]; rfl

theorem keepTd_setCS {n : Nat} {f : CState → CState} {k : CState → SM γ} (hf : ∀ c, K[n]? = some (tcon c) → tcon (f c) = tcon c) (hk : ∀ c, Keep (SameT K) (k c)) :
    Keep (SameT K) (getCS n >>= fun c => setCS n (f c) >>= fun _ => k c) := by
  refine ⟨fun W a W' hx h => ?_⟩
  obtain ⟨c, W1, h1, h2⟩ := SM.bind_ok hx
  obtain ⟨⟨hc, -⟩, rfl⟩ := getCS_iff.mp h1
  obtain ⟨_, W2, h3, h4⟩ := SM.bind_ok h2
  injection h3 with h3
  obtain ⟨-, rfl⟩ := Prod.mk.inj h3
  refine (hk c).keep _ _ _ h4 ?_
  exact h.of (tview_set hc (hf c (h.con hc)))

theorem Keep.modT {f : Book → Book} (h : ∀ b, tview (f b) = tview b) : Keep (SameT K) (modify (fun W => { W with book := f W.book }) : SM Unit) := by
  refine ⟨fun W a W' hx hp => ?_⟩
  rw [modify_iff] at hx
  subst hx
  exact hp.of (h _)

theorem markInactive_tview {b : Book} {l n : Nat} : tview (b.markInactive l n) = tview b := by
  unfold Book.markInactive
  cases hc : b.cs[n]? with
  | none => rfl
  | some c =>
    dsimp only
    split
    · exact map_tcon_set hc rfl
    · rfl

theorem keepTd_markInactiveS {n : Nat} : Keep (SameT K) (markInactiveS n) := by
  unfold markInactiveS
  exact Keep.bind (Keep.fr Fr.curLevel) (fun l => Keep.modT (fun b => markInactive_tview))
macro_rules | `(tactic| keep_step) => `(tactic| with_reducible exact keepTd_markInactiveS)

theorem keepTd_sumPropagate {cc : CC} {n : Nat} {ck t : Bool} {l r : Int} {es : List (Int × Nat)} : Keep (SameT K) (sumPropagate cc n ck t l r es) := by
  unfold sumPropagate; keep_auto
theorem keepTd_nonlinearPropagate {cc : CC} {n : Nat} {ca cb r : Int} {x y z : Nat} : Keep (SameT K) (nonlinearPropagate cc n ca x y cb z r) := by
  unfold nonlinearPropagate; keep_auto

/-- The constraint with the given number is a distinct constraint. -/
def isDistinct (K : List (Constr × Bool)) (n : Nat) : Prop := ∃ l es b, K[n]? = some (.distinct l es, b)
/-- The constraint with the given number is a disjoint constraint. -/
def isDisjoint (K : List (Constr × Bool)) (n : Nat) : Prop := ∃ l es b, K[n]? = some (.disjoint l es, b)

theorem distinctUpdate_tcon {es : List (List (Int × Nat) × Int)} : ∀ {is : List Nat} {c c' : CState} {W W' : World},
    distinctUpdate es is c W = .ok (c', W') → (∃ l e, c.con = .distinct l e) → tcon c' = tcon c
  | [], c, c', W, W', h, ⟨l, e, hd⟩ => by
    unfold distinctUpdate at h
    obtain ⟨rfl, -⟩ := pure_iff.mp h
    simp [tcon, tidy, hd, noSum, noDisjoint]
  | i :: is, c, c', W, W', h, hd => by
    unfold distinctUpdate at h
    cases he : es[i]? with
    | none => rw [he] at h; cases h
    | some e =>
    cases ho : c.assigned[i]? with
    | none => rw [he, ho] at h; cases h
    | some o =>
      rw [he, ho] at h
      obtain ⟨_, W1, _, h⟩ := SM.bind_ok h
      obtain ⟨_, W2, _, h⟩ := SM.bind_ok h
      obtain ⟨_, W3, _, h⟩ := SM.bind_ok h
      have := distinctUpdate_tcon h hd
      rw [this]
      obtain ⟨l, e, hd⟩ := hd
      simp [tcon, tidy, hd, noSum, noDisjoint]

theorem con_of {n : Nat} {c : CState} {k : Constr} {b : Bool} (h : K[n]? = some (k, b)) (hc : K[n]? = some (tcon c)) : c.con = k := by
  rw [hc] at h; injection h with h; exact congrArg Prod.fst h

theorem keepTd_distinctPropagate {cc : CC} {n : Nat} {l : Int} {es : List (List (Int × Nat) × Int)} (hn : isDistinct K n) : Keep (SameT K) (distinctPropagate cc n l es) := by
  obtain ⟨l0, es0, b0, hn⟩ := hn
  unfold distinctPropagate
  refine ⟨fun W a W' hx h => ?_⟩
  obtain ⟨c, W1, h1, h2⟩ := SM.bind_ok hx
  obtain ⟨⟨hcs, hal⟩, rfl⟩ := getCS_iff.mp h1
  obtain ⟨c', W2, h3, h4⟩ := SM.bind_ok h2
  obtain ⟨_, W3, h5, h6⟩ := SM.bind_ok h4
  injection h5 with h5
  obtain ⟨-, rfl⟩ := Prod.mk.inj h5
  have hf : W2.book = W1.book := congrArg Prod.snd (fr_distinctUpdate.fr _ _ _ h3)
  refine Keep.keep (P := SameT K) ?_ _ _ _ h6 ?_
  · have hfin : Keep (SameT K) (getCS n >>= fun c => setCS n c.clearTodo >>= fun _ => (Pure.pure true : SM Bool)) :=
      keepTd_setCS (f := fun c => c.clearTodo) (fun c hc => by simp [tcon, tidy, CState.clearTodo, con_of hn hc, noSum, noDisjoint]) (fun _ => Keep.fr Fr.pure)
    refine Keep.bind (Keep.fr fr_distinctTodo) (fun b => ?_)
    split
    · exact Keep.fr Fr.pure
    · refine Keep.bind (Keep.fr fr_distinctTodo) (fun b => ?_)
      split
      · exact Keep.fr Fr.pure
      · exact hfin
  · refine h.of ?_
    show tview { W2.book with cs := W2.book.cs.set n c' } = tview W1.book
    rw [hf]
    exact tview_set hcs (distinctUpdate_tcon h3 ⟨_, _, con_of hn (h.con hcs)⟩)

theorem keepTd_disjointPropagate {cc : CC} {n : Nat} {l : Int} (hn : isDisjoint K n) : Keep (SameT K) (disjointPropagate cc n l) := by
  obtain ⟨l0, es0, b0, hn⟩ := hn
  unfold disjointPropagate
  refine Keep.bind (Keep.fr Fr.getCS) (fun c => ?_)
  refine Keep.bind (Keep.fr fr_disjointLoad) (fun is => ?_)
  refine Keep.bind (Keep.fr fr_disjointRun) (fun p => ?_)
  refine keepTd_setCS (f := fun c => { c with intervals := p.2, forceUpdate := false }) (fun c hc => by simp [tcon, tidy, con_of hn hc, noSum, noDistinct]) (fun c' => ?_)
  split
  · exact Keep.fr Fr.pure
  · refine Keep.bind (Keep.fr fr_disjointRun) (fun q => ?_)
    exact keepTd_setCS (f := fun c => { c with intervals := q.2 }) (fun c hc => by simp [tcon, tidy, con_of hn hc, noSum, noDistinct]) (fun _ => Keep.fr Fr.pure)

theorem keepTd_propagateCS {cc : CC} {ck : Bool} {n : Nat} : Keep (SameT K) (propagateCS cc ck n) := by
  unfold propagateCS
  refine ⟨fun W a W' h hp => ?_⟩
  obtain ⟨c, W1, h1, h2⟩ := SM.bind_ok h
  obtain ⟨⟨hc, hal⟩, rfl⟩ := getCS_iff.mp h1
  have hK := hp.con hc
  cases hcon : c.con with
  | sum l r es => rw [hcon] at h2; exact keepTd_sumPropagate.keep _ _ _ h2 hp
  | minimize x es =>
    rw [hcon] at h2
    refine Keep.keep (P := SameT K) (Keep.bind (Keep.fr Fr.get) fun W => Keep.bind (Keep.fr (by fr_auto)) fun r => ?_) _ _ _ h2 hp
    split
    · exact Keep.fr Fr.pure
    · exact keepTd_sumPropagate
  | distinct l es => rw [hcon] at h2; exact (keepTd_distinctPropagate ⟨l, es, tidy c, by rw [hK, tcon, hcon]⟩).keep _ _ _ h2 hp
  | nonlinear l ca x y cb z r => rw [hcon] at h2; exact keepTd_nonlinearPropagate.keep _ _ _ h2 hp
  | disjoint l es => rw [hcon] at h2; exact (keepTd_disjointPropagate ⟨l, es, tidy c, by rw [hK, tcon, hcon]⟩).keep _ _ _ h2 hp

/-- The change of the book made by a computation keeps the constraints. -/
theorem Keep.sameT {x : SM α} (h : ∀ W a W', x W = .ok (a, W') → tview W'.book = tview W.book) : Keep (SameT K) x :=
  ⟨fun W a W' hx hp => hp.of (h W a W' hx)⟩

theorem keepTd_updateLower {l v : Nat} {x : Int} : Keep (SameT K) (updateLower l v x) :=
  Keep.sameT (fun W u W' h => by obtain ⟨y, -, e⟩ := updateLower_frame h; have e := congrArg Prod.snd e; simp only [frame] at e; rw [e]; rfl)
theorem keepTd_updateUpper {l v : Nat} {x : Int} : Keep (SameT K) (updateUpper l v x) :=
  Keep.sameT (fun W u W' h => by obtain ⟨y, -, e⟩ := updateUpper_frame h; have e := congrArg Prod.snd e; simp only [frame] at e; rw [e]; rfl)
macro_rules | `(tactic| keep_step) => `(tactic| with_reducible exact keepTd_updateLower)
macro_rules | `(tactic| keep_step) => `(tactic| with_reducible exact keepTd_updateUpper)
theorem keepTd_updateUpperLit {cc : CC} {l v : Nat} {lit value sl : Int} : Keep (SameT K) (updateUpperLit cc l v lit value sl) := by
  unfold updateUpperLit; keep_auto
theorem keepTd_updateLowerLit {cc : CC} {l v : Nat} {lit value sl : Int} : Keep (SameT K) (updateLowerLit cc l v lit value sl) := by
  unfold updateLowerLit; keep_auto
macro_rules | `(tactic| keep_step) => `(tactic| with_reducible exact keepTd_updateUpperLit)
macro_rules | `(tactic| keep_step) => `(tactic| with_reducible exact keepTd_updateLowerLit)
theorem keepTd_propagateFacts {cc : CC} {l : Nat} : ∀ {fs : List (Int × Nat × Int × Int)}, Keep (SameT K) (propagateFacts cc l fs)
  | [] => by unfold propagateFacts; keep_auto
  | (a, b, c, d) :: fs => by
    have ih := keepTd_propagateFacts (cc := cc) (l := l) (fs := fs)
    unfold propagateFacts; keep_auto
macro_rules | `(tactic| keep_step) => `(tactic| with_reducible exact keepTd_propagateFacts)
theorem keepTd_updateDomain {cc : CC} {lit : Int} : Keep (SameT K) (updateDomain cc lit) := by unfold updateDomain; keep_auto
macro_rules | `(tactic| keep_step) => `(tactic| with_reducible exact keepTd_updateDomain)
theorem keepTd_integrateFacts {cc : CC} : Keep (SameT K) (integrateFacts cc) := by unfold integrateFacts; keep_auto
macro_rules | `(tactic| keep_step) => `(tactic| with_reducible exact keepTd_integrateFacts)



theorem markTodo_tview {b : Book} {n : Nat} : tview (b.markTodo n) = tview b := by
  unfold Book.markTodo
  cases hc : b.cs[n]? with
  | none => rfl
  | some c =>
    dsimp only
    split
    · rfl
    · split
      · rfl
      · exact tview_set (c' := { c with todo := true }) hc rfl

theorem update_tcon {c : CState} {i d : Int} {r : Bool × CState} (h : c.update i d = .ok r) : tcon r.2 = tcon c := by
  unfold CState.update at h
  have hs : ∀ {r : Bool × CState}, (∃ a b e, c.con = .sum a b e) ∨ (∃ a e, c.con = .minimize a e) → c.updateSum i d = .ok r → tcon r.2 = tcon c := by
    intro r hk h
    unfold CState.updateSum at h
    split at h
    · cases h
    · rcases hk with ⟨a, b, e, hk⟩ | ⟨a, e, hk⟩ <;> split at h <;> (injection h with h; subst h; simp [tcon, tidy, hk, noDistinct, noDisjoint])
  split at h
  · next e => exact hs (.inl ⟨_, _, _, e⟩) h
  · next e => exact hs (.inr ⟨_, _, e⟩) h
  · next e =>
    injection h with h; subst h
    unfold CState.markTodoElem CState.markDirty
    split_ifs <;> simp [tcon, tidy, e, noSum, noDisjoint]
  · injection h with h; subst h; rfl
  · injection h with h; subst h; rfl

theorem updateWatches_tview {level var : Nat} {d : Int} : ∀ {ws : List (Int × Nat)} {b : Book} {p : List (Int × Nat) × Book},
    Book.updateWatches level var d ws b = .ok p → tview p.2 = tview b
  | [], b, p, h => by
    injection h with h; subst h
    rfl
  | (i, n) :: ws, b, p, h => by
    unfold Book.updateWatches at h
    cases hc : b.cs[n]? with
    | none => rw [hc] at h; cases h
    | some c =>
      rw [hc] at h
      dsimp only at h
      split at h
      · exact (updateWatches_tview h).trans rfl
      · cases hu : c.update i d with
        | error e => rw [hu] at h; cases h
        | ok r =>
          rw [hu] at h
          have e0 : tview { b with cs := b.cs.set n r.2 } = tview b := tview_set hc (update_tcon hu)
          simp only [bind, Except.bind] at h
          split at h
          · cases h
          · next q hx =>
            simp only [pure, Except.pure, Except.ok.injEq] at h
            subst h
            split at hx
            · exact ((updateWatches_tview hx).trans markTodo_tview).trans e0
            · exact (updateWatches_tview hx).trans e0

theorem updateConstraints_tview {level var : Nat} {d : Int} {b b' : Book} (h : Book.updateConstraints level var d b = .ok b') : tview b' = tview b := by
  unfold Book.updateConstraints at h
  cases hw : b.watches[var]? with
  | none => rw [hw] at h; cases h
  | some ws =>
    rw [hw] at h
    dsimp only at h
    cases hu : Book.updateWatches level var d ws b with
    | error e => rw [hu] at h; cases h
    | ok p =>
      rw [hu] at h
      simp only [bind, Except.bind, pure, Except.pure, Except.ok.injEq] at h
      subst h
      exact (updateWatches_tview hu)

theorem updateUppers_tview {level : Nat} : ∀ {vs : List Nat} {b b' : Book}, Book.updateUppers level vs b = .ok b' → tview b' = tview b
  | [], b, b', h => by injection h with h; subst h; rfl
  | v :: vs, b, b', h => by
    unfold Book.updateUppers at h
    cases hb : Book.updateConstraints level v (b.udiff.getD v 0) b with
    | error e => rw [hb] at h; cases h
    | ok b1 =>
      rw [hb] at h
      exact (updateUppers_tview (b := { b1 with udiff := b1.udiff.set v 0 }) h).trans (show tview b1 = tview b from updateConstraints_tview hb)

theorem updateLowers_tview {level : Nat} : ∀ {vs : List Nat} {b b' : Book}, Book.updateLowers level vs b = .ok b' → tview b' = tview b
  | [], b, b', h => by injection h with h; subst h; rfl
  | v :: vs, b, b', h => by
    unfold Book.updateLowers at h
    cases hb : Book.updateConstraints level v (b.ldiff.getD v 0) b with
    | error e => rw [hb] at h; cases h
    | ok b1 =>
      rw [hb] at h
      exact (updateLowers_tview (b := { b1 with ldiff := b1.ldiff.set v 0 }) h).trans (show tview b1 = tview b from updateConstraints_tview hb)

theorem t_deliver {level : Nat} : Keep (SameT K) (deliver level) := by
  refine Keep.sameT (fun W u W' h => ?_)
  unfold deliver at h
  obtain ⟨W1, W2, h1, h2⟩ := SM.bind_ok h
  obtain ⟨rfl, rfl⟩ := get_iff.mp h1
  obtain ⟨b1, W3, h3, h4⟩ := SM.bind_ok h2
  obtain ⟨h3, rfl⟩ := liftRes_iff.mp h3
  obtain ⟨b2, W4, h5, h6⟩ := SM.bind_ok h4
  obtain ⟨g5, rfl⟩ := liftRes_iff.mp h5
  rw [modify_iff] at h6
  subst h6
  exact (updateLowers_tview g5).trans (updateUppers_tview h3)

theorem unmarkTodo_tcon : ∀ {ns : List Nat} {cs : List CState}, (Book.unmarkTodo cs ns).map tcon = cs.map tcon
  | [], _ => rfl
  | n :: ns, cs => by
    show (Book.unmarkTodo (cs.modify n (fun c => { c with todo := false })) ns).map tcon = _
    rw [unmarkTodo_tcon]
    refine map_tcon_eq (by simp) (fun j c hc => ?_)
    rw [List.getElem?_modify, hc]
    refine ⟨_, rfl, ?_⟩
    split_ifs <;> rfl

theorem activate_tcon : ∀ {ns : List Nat} {cs : List CState}, (Book.activate cs ns).map tcon = cs.map tcon
  | [], _ => rfl
  | n :: ns, cs => by
    show (Book.activate (cs.modify n (fun c => { c with inactive := 0 })) ns).map tcon = _
    rw [activate_tcon]
    refine map_tcon_eq (by simp) (fun j c hc => ?_)
    rw [List.getElem?_modify, hc]
    refine ⟨_, rfl, ?_⟩
    split_ifs <;> rfl

theorem t_checkOne {ck : Bool} {n : Nat} : Keep (SameT K) (checkOne cc ck n) := by
  unfold checkOne
  refine ⟨fun W a W' h hp => ?_⟩
  obtain ⟨c, W1, h1, h2⟩ := SM.bind_ok h
  obtain ⟨⟨hc, hal⟩, rfl⟩ := getCS_iff.mp h1
  obtain ⟨_, W2, h3, h4⟩ := SM.bind_ok h2
  injection h3 with h3
  obtain ⟨-, rfl⟩ := Prod.mk.inj h3
  have hk : Keep (SameT K) (qFalse cc c.con.lit >>= fun f => if (!f) = true then propagateCS cc ck n else (markInactiveS n >>= fun _ => Pure.pure true)) := by
    refine Keep.bind (Keep.fr Fr.qFalse) (fun b => ?_)
    split
    · exact keepTd_propagateCS
    · exact Keep.bind keepTd_markInactiveS (fun _ => Keep.fr Fr.pure)
  exact hk.keep _ _ _ h4 (hp.of (tview_set (c' := { c with todo := false }) hc rfl))

theorem t_checkTodo {ck : Bool} : ∀ {ns : List Nat}, Keep (SameT K) (checkTodo cc ck ns)
  | [] => by unfold checkTodo; exact Keep.fr Fr.pure
  | n :: ns => by
    unfold checkTodo
    refine Keep.bind t_checkOne (fun b => ?_)
    split
    · refine Keep.bind (Keep.sameT (fun W u W' h => ?_)) (fun _ => Keep.fr Fr.pure)
      rw [modify_iff] at h
      subst h
      unfold tview
      simp only
      rw [unmarkTodo_tcon]
    · exact t_checkTodo

theorem keepTd_modify {f : World → World} (h : ∀ W, tview (f W).book = tview W.book) : Keep (SameT K) (modify f) :=
  ⟨fun W u W' hx hk => by rw [modify_iff] at hx; subst hx; exact hk.of (h W)⟩

theorem t_checkLoop {ck : Bool} {level : Nat} : ∀ {n : Nat}, Keep (SameT K) (checkLoop cc ck level n)
  | 0 => ⟨fun W a W' h => by cases h⟩
  | n + 1 => by
    have ih := t_checkLoop (ck := ck) (level := level) (n := n)
    unfold checkLoop
    refine Keep.bind keepTd_integrateFacts (fun b => ?_)
    split
    · exact Keep.fr Fr.pure
    refine Keep.bind t_deliver (fun _ => ?_)
    refine Keep.bind (Keep.fr Fr.get) (fun W => ?_)
    refine Keep.bind t_checkTodo (fun r => ?_)
    refine Keep.bind (keepTd_modify (fun _ => rfl)) (fun _ => ?_)
    refine Keep.bind (Keep.fr Fr.get) (fun W => ?_)
    split
    · exact Keep.fr Fr.pure
    · exact ih

theorem t_solverCheck {ck : Bool} {n : Nat} : Keep (SameT K) (solverCheck cc ck n) := by
  unfold solverCheck
  refine Keep.bind (Keep.fr Fr.curLevel) (fun l => Keep.bind (Keep.fr Fr.get) (fun W => ?_))
  split
  · exact Keep.fr Fr.pure
  · exact t_checkLoop

theorem markTodo_foldl_tview : ∀ {ns : List Nat} {b : Book}, tview (ns.foldl Book.markTodo b) = tview b
  | [], _ => rfl
  | n :: ns, b => by rw [List.foldl_cons, markTodo_foldl_tview, markTodo_tview]

theorem keepTd_pushLevel {n : Nat} : Keep (SameT K) (pushLevel n) := by
  unfold pushLevel
  exact Keep.bind (Keep.fr Fr.curLevel) (fun l => Keep.whenS (keepTd_modify (fun _ => rfl)))

theorem t_propagateLits : ∀ {ls : List Int}, Keep (SameT K) (propagateLits cc ls)
  | [] => Keep.fr Fr.pure
  | l :: ls => by
    unfold propagateLits propagateLit
    refine Keep.bind (Keep.bind (keepTd_modify (fun W => markTodo_foldl_tview)) (fun _ => keepTd_updateDomain)) (fun b => ?_)
    split
    · exact Keep.fr Fr.pure
    · exact t_propagateLits

theorem t_solverPropagate {ls : List Int} : Keep (SameT K) (solverPropagate cc ls) := by
  unfold solverPropagate
  exact Keep.bind keepTd_pushLevel (fun _ => t_propagateLits)

theorem t_factLoop {ck : Bool} {t : List SEv → List Int} {fuel : Nat} : ∀ {n : Nat}, Keep (SameT K) (factLoop cc t ck fuel n)
  | 0 => Keep.fr Fr.ub
  | n + 1 => by
    have ih := t_factLoop (ck := ck) (t := t) (fuel := fuel) (n := n)
    unfold factLoop
    refine Keep.bind (Keep.fr (by fr_auto)) (fun b => ?_)
    split
    · exact Keep.fr Fr.pure
    refine Keep.bind (Keep.fr (by fr_auto)) (fun W => ?_)
    dsimp only
    split
    · exact Keep.fr Fr.pure
    refine Keep.bind t_solverPropagate (fun b => ?_)
    split
    · exact Keep.fr Fr.pure
    refine Keep.bind (keepTd_modify (fun _ => rfl)) (fun _ => ?_)
    refine Keep.bind t_solverCheck (fun b => ?_)
    split
    · exact Keep.fr Fr.pure
    · exact ih

theorem undo_tcon {c : CState} {i d : Int} : tcon (c.undo i d) = tcon c := by
  unfold CState.undo
  split
  · next e => unfold CState.undoSum; split_ifs <;> simp [tcon, tidy, e, noDistinct, noDisjoint]
  · next e => unfold CState.undoSum; split_ifs <;> simp [tcon, tidy, e, noDistinct, noDisjoint]
  · next e => unfold CState.clearTodo CState.markDirty; split_ifs <;> simp [tcon, tidy, e, noSum, noDisjoint]
  · rfl
  · next e => simp [tcon, tidy, e, noSum, noDistinct]

theorem undoWatches_tcon {d : Int} : ∀ {ws : List (Int × Nat)} {cs : List CState}, (Book.undoWatches d ws cs).map tcon = cs.map tcon
  | [], _ => rfl
  | (i, n) :: ws, cs => by
    show (Book.undoWatches d ws (cs.modify n (fun c => c.undo i d))).map tcon = _
    rw [undoWatches_tcon]
    refine map_tcon_eq (by simp) (fun j c hc => ?_)
    rw [List.getElem?_modify, hc]
    refine ⟨_, rfl, ?_⟩
    split_ifs
    · exact undo_tcon
    · rfl

theorem keepTd_undoLowers : ∀ {vs : List Nat}, Keep (SameT K) (undoLowers vs)
  | [] => Keep.fr Fr.pure
  | v :: vs => by
    unfold undoLowers undoLowerVar
    refine Keep.bind (Keep.sameT fun W u W' h => ?_) (fun _ => keepTd_undoLowers)
    simp only [smok] at h
    obtain ⟨y, W1, ⟨hv, rfl⟩, y', W2, ⟨hp, rfl⟩, _, W3, rfl, rfl⟩ := h
    unfold tview
    simp only
    split_ifs
    · rw [undoWatches_tcon]
    · rfl

theorem keepTd_undoUppers : ∀ {vs : List Nat}, Keep (SameT K) (undoUppers vs)
  | [] => Keep.fr Fr.pure
  | v :: vs => by
    unfold undoUppers undoUpperVar
    refine Keep.bind (Keep.sameT fun W u W' h => ?_) (fun _ => keepTd_undoUppers)
    simp only [smok] at h
    obtain ⟨y, W1, ⟨hv, rfl⟩, y', W2, ⟨hp, rfl⟩, _, W3, rfl, rfl⟩ := h
    unfold tview
    simp only
    split_ifs
    · rw [undoWatches_tcon]
    · rfl

theorem t_solverUndo : Keep (SameT K) solverUndo := by
  unfold solverUndo levelUndo
  refine Keep.bind (Keep.fr (by fr_auto)) (fun l => ?_)
  refine Keep.bind (Keep.fr (by fr_auto)) (fun _ => ?_)
  refine Keep.bind ?_ (fun _ => ?_)
  · refine Keep.bind (Keep.fr (by fr_auto)) (fun W => ?_)
    refine Keep.bind keepTd_undoLowers (fun _ => ?_)
    refine Keep.bind (keepTd_modify (fun _ => rfl)) (fun _ => ?_)
    refine Keep.bind (Keep.fr (by fr_auto)) (fun W => ?_)
    refine Keep.bind keepTd_undoUppers (fun _ => ?_)
    refine Keep.bind (keepTd_modify (fun _ => rfl)) (fun _ => ⟨fun W u W' h hq => ?_⟩)
    rw [modify_iff] at h
    subst h
    rw [← hq]
    show (Book.unmarkTodo (Book.activate _ _) _).map tcon = _
    rw [unmarkTodo_tcon, activate_tcon]
    rfl
  · exact Keep.bind (keepTd_modify (fun _ => rfl)) (fun _ => Keep.fr (by fr_auto))

theorem keepTd_splitFirst : ∀ {vs : List Nat}, Keep (SameT K) (splitFirst cc vs)
  | [] => Keep.fr Fr.pure
  | v :: vs => by
    unfold splitFirst
    refine Keep.bind (Keep.fr fr_splitVar) (fun b => ?_)
    split
    · exact Keep.bind (keepTd_modify (fun _ => rfl)) (fun _ => Keep.fr Fr.pure)
    · exact keepTd_splitFirst

theorem keepTd_solverCheckFull {b : Bool} : Keep (SameT K) (solverCheckFull cc b) := by
  unfold solverCheckFull
  refine Keep.bind (Keep.fr (by fr_auto)) (fun W => ?_)
  dsimp only
  refine Keep.bind ?_ (fun s => ?_)
  · split
    · exact Keep.fr fr_splitEach
    · exact keepTd_splitFirst
  · exact Keep.fr (by fr_auto)


/-- All constraint states are tidy. -/
def Tidy (W : World) : Prop := ∀ c ∈ W.book.cs, tidy c = true

theorem tidy_keep {x : SM α} {a : α} (hk : ∀ K, Keep (SameT K) x) (hx : x W = .ok (a, W')) (h : Tidy W) : Tidy W' := by
  have := (hk (tview W.book)).keep _ _ _ hx rfl
  intro c hc
  have hm : tcon c ∈ tview W.book := by
    rw [← this]
    exact List.mem_map.mpr ⟨c, hc, rfl⟩
  obtain ⟨c', h1, h2⟩ := List.mem_map.mp hm
  rw [← h c' h1]
  exact (congrArg Prod.snd h2).symm

theorem Tidy.of (h : Tidy W) (e : tview W'.book = tview W.book) : Tidy W' := by
  intro c hc
  have hm : tcon c ∈ tview W.book := by
    rw [← e]
    exact List.mem_map.mpr ⟨c, hc, rfl⟩
  obtain ⟨c', h1, h2⟩ := List.mem_map.mp hm
  rw [← h c' h1]
  exact (congrArg Prod.snd h2).symm

theorem distinctInit_tidy : ∀ {es : List (CoVarVec × Int)} {i : Nat} {c st : CState}, distinctInit i es c W = .ok (st, W') →
    (∃ l e, c.con = .distinct l e) → tidy c = true → tidy st = true
  | [], i, c, st, h, _, ht => by
    unfold distinctInit at h
    obtain ⟨rfl, -⟩ := pure_iff.mp h
    exact ht
  | (e, f) :: es, i, c, st, h, hd, ht => by
    unfold distinctInit at h
    obtain ⟨p, W1, h1, h2⟩ := SM.bind_ok h
    obtain ⟨e0, -⟩ := sumBounds_eff h1
    rw [e0] at h2
    refine distinctInit_tidy h2 hd ?_
    rw [← ht]
    obtain ⟨l, e', hd⟩ := hd
    simp [tidy, hd, noSum, noDisjoint]

theorem initState_tidy {c : Constr} {st : CState} (h : initState c W = .ok (st, W')) : tidy st = true := by
  cases c with
  | sum l r es =>
    obtain ⟨p, W1, h1, h2⟩ := SM.bind_ok h
    obtain ⟨rfl, -⟩ := pure_iff.mp h2
    rfl
  | minimize a es =>
    obtain ⟨p, W1, h1, h2⟩ := SM.bind_ok h
    obtain ⟨rfl, -⟩ := pure_iff.mp h2
    rfl
  | distinct l es => exact distinctInit_tidy h ⟨_, _, rfl⟩ rfl
  | nonlinear l ca x y cb z r => obtain ⟨rfl, -⟩ := pure_iff.mp h; rfl
  | disjoint l es => obtain ⟨rfl, -⟩ := pure_iff.mp h; rfl

theorem tidy_addConstraint {c : Constr} {n : Nat} (h : addConstraint c W = .ok (n, W')) (hq : Tidy W) : Tidy W' := by
  unfold addConstraint at h
  obtain ⟨st, W1, h1, h2⟩ := SM.bind_ok h
  have ht := initState_tidy h1
  obtain ⟨rfl, -⟩ := initState_eff h1
  obtain ⟨W2, W3, h3, h4⟩ := SM.bind_ok h2
  obtain ⟨rfl, rfl⟩ := get_iff.mp h3
  dsimp only at h4
  obtain ⟨_, W4, h5, h6⟩ := SM.bind_ok h4
  rw [modify_iff] at h5
  subst h5
  obtain ⟨_, W5, h7, h8⟩ := SM.bind_ok h6
  obtain ⟨e1, -, -, e4⟩ := addVarWatches_eff h7
  obtain ⟨_, W6, h9, h10⟩ := SM.bind_ok h8
  rw [modify_iff] at h9
  obtain ⟨-, rfl⟩ := pure_iff.mp h10
  subst h9
  have h0 : Tidy W5 := by
    intro k hk
    rw [e1] at hk
    rcases List.mem_append.mp hk with hk | hk
    · exact hq k hk
    · rw [List.mem_singleton] at hk; subst hk; exact ht
  exact h0.of (W' := { W5 with book := W5.book.markTodo _ }) markTodo_tview

theorem tidy_removeConstraint {n : Nat} {u : Unit} (h : removeConstraint n W = .ok (u, W')) (hq : Tidy W) : Tidy W' := by
  unfold Clingcon.removeConstraint at h
  obtain ⟨W1, W2, h1, h2⟩ := SM.bind_ok h
  obtain ⟨e0, e0'⟩ := get_iff.mp h1
  rw [e0, e0'] at h2
  cases hc : W.book.cs[n]? with
  | none => rw [hc] at h2; cases h2
  | some c =>
  rw [hc] at h2
  obtain ⟨_, W3, h3, h4⟩ := SM.bind_ok h2
  obtain ⟨l, W4, h5, h6⟩ := SM.bind_ok h4
  simp only [smok] at h5 h6
  obtain ⟨ls, hls, rfl⟩ := h5
  obtain ⟨_, W5, ⟨hl, rfl⟩, rfl⟩ := h6
  obtain ⟨e1, e2, e3, e4⟩ := removeVarWatches_eff h3
  have hcs : W5.book.cs = W.book.cs := by rw [e1]
  refine hq.of ?_
  simp only [tview, Book.removeMarks, hcs, hc]
  exact map_tcon_set hc rfl

theorem tidy_removeConstraints {rem : Nat → Bool} {b : Book} : tview (b.removeConstraints rem) = tview b := by
  show (((Book.unmarkTodo (Book.activate b.cs b.inactive) b.todo).zipIdx.map (fun p => if rem p.2 then { p.1 with alive := false } else p.1))).map tcon = b.cs.map tcon
  rw [List.map_map]
  have : (tcon ∘ fun p : CState × Nat => if rem p.2 then { p.1 with alive := false } else p.1) = tcon ∘ Prod.fst := by
    funext p
    simp only [Function.comp]
    split <;> rfl
  rw [this, ← List.map_map, List.zipIdx_map_fst, unmarkTodo_tcon, activate_tcon]

theorem tidy_step {op : Op} {r : Bool} (h : op.exec W = .ok (r, W')) (hq : Tidy W) : Tidy W' := by
  cases op with
  | addVar lo hi' =>
    obtain ⟨_, W1, h1, h2⟩ := SM.bind_ok h
    obtain ⟨-, rfl⟩ := pure_iff.mp h2
    obtain ⟨v, h3⟩ := discard_iff.mp h1
    injection h3 with h3
    obtain ⟨-, rfl⟩ := Prod.mk.inj h3
    exact hq
  | addConstraint c =>
    obtain ⟨_, W1, h1, h2⟩ := SM.bind_ok h
    obtain ⟨-, rfl⟩ := pure_iff.mp h2
    obtain ⟨v, h3⟩ := discard_iff.mp h1
    exact tidy_addConstraint h3 hq
  | removeConstraint n =>
    obtain ⟨_, W1, h1, h2⟩ := SM.bind_ok h
    obtain ⟨-, rfl⟩ := pure_iff.mp h2
    exact tidy_removeConstraint h1 hq
  | removeConstraints rem =>
    obtain ⟨_, W1, h1, h2⟩ := SM.bind_ok h
    obtain ⟨-, rfl⟩ := pure_iff.mp h2
    obtain rfl := modify_iff.mp h1
    exact hq.of tidy_removeConstraints
  | updateMinimize n l b =>
    refine tidy_keep (fun K => Keep.bind (keepTd_modify (fun W => ?_)) (fun _ => Keep.fr Fr.pure)) h hq
    unfold Book.updateMinimize
    split_ifs
    · exact markTodo_tview (b := { W.book with minimizeBound := some b, minimizeLevel := l })
    · exact markTodo_tview (b := { W.book with minimizeLevel := l })
    · rfl
  | enable => rw [(enable_iff.mp h).2]; exact hq
  | fresh => exact tidy_keep (fun K => Keep.fr fr_fresh) h hq
  | post e => exact tidy_keep (fun K => Keep.fr fr_post) h hq
  | literal cc v x => exact tidy_keep (fun K => Keep.bind (Keep.discard (Keep.fr fr_getLiteral)) (fun _ => Keep.fr Fr.pure)) h hq
  | updLiteral cc v x t => exact tidy_keep (fun K => Keep.bind (Keep.discard (Keep.fr fr_updateLiteral)) (fun _ => Keep.fr Fr.pure)) h hq
  | simple cc l co v r s => exact tidy_keep (fun K => Keep.fr fr_addSimple) h hq
  | dom cc l v d => exact tidy_keep (fun K => Keep.fr fr_addDom) h hq
  | propagate cc ls => exact tidy_keep (fun K => t_solverPropagate) h hq
  | check cc b n => exact tidy_keep (fun K => t_solverCheck) h hq
  | simplify cc t b n =>
    refine tidy_keep (x := solverSimplify cc t b n) (fun K => ?_) h hq
    unfold solverSimplify
    exact t_factLoop
  | undo => exact tidy_keep (fun K => Keep.bind t_solverUndo (fun _ => Keep.fr Fr.pure)) h hq
  | decide cc l => exact tidy_keep (fun K => Keep.bind (Keep.discard (Keep.fr fr_solverDecide)) (fun _ => Keep.fr Fr.pure)) h hq
  | checkFull cc b => exact tidy_keep (fun K => Keep.bind keepTd_solverCheckFull (fun _ => Keep.fr Fr.pure)) h hq
  | updateBounds cc o b n =>
    refine tidy_keep (x := updateBounds cc o b n) (fun K => ?_) h hq
    unfold Clingcon.updateBounds
    refine Keep.bind (Keep.fr fr_takeBounds) (fun b => ?_)
    split
    · exact Keep.fr Fr.pure
    · exact t_solverCheck
  | update n =>
    refine tidy_keep (fun K => Keep.bind ?_ (fun _ => Keep.fr Fr.pure)) h hq
    unfold solverUpdate
    exact Keep.bind (keepTd_modify (fun _ => rfl)) (fun _ => Keep.bind (Keep.fr Fr.get) (fun W => Keep.fr fr_updateStep))

theorem tidy_run {ops : List Op} (h : Run ops W W') : Tidy W → Tidy W' := by
  induction h with
  | nil => exact id
  | cons _ h2 _ ih => exact fun hq => ih (tidy_step h2 hq)

theorem Reach.tidy (h : Reach W) : Tidy W := by
  obtain ⟨n, ops, -, h⟩ := h
  exact tidy_run h (fun c hc => by cases hc)

end Clingcon
