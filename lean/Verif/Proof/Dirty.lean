import Verif.Proof.Copy

/-! Distinct constraints whose recorded bounds are out of date are queued until the search is undone. -/
set_option linter.unusedSimpArgs false
set_option linter.unusedVariables false
namespace Clingcon
open Spec VarState

/-- A constraint state in use that is marked as queued or that belongs to an active distinct constraint with bounds that are out of date. -/
def hot (c : CState) : Bool := c.alive && (c.todo || (match c.con with | .distinct _ _ => !c.dirty.isEmpty && c.inactive == 0 | _ => false))

/-- All such states are among the given ones. -/
def HotIn (T ns : List Nat) (F : List VarState × Book) : Prop := F.2.todo = T ∧ ∀ (n : Nat) c, F.2.cs[n]? = some c → hot c = true → n ∈ ns

/-- All such states are queued. -/
def HotQ (b : Book) : Prop := ∀ (n : Nat) c, b.cs[n]? = some c → hot c = true → n ∈ b.todo

variable {α γ : Type} {W W' : World} {T ns : List Nat} {cc : CC}

theorem HotQ.of {b b' : Book} (h : HotQ b) (hc : b'.cs = b.cs) (ht : b'.todo = b.todo) : HotQ b' := by
  intro n c h1 h2
  rw [ht]
  rw [hc] at h1
  exact h n c h1 h2

theorem HotIn.of (h : HotIn T ns (frame W)) (hc : W'.book.cs = W.book.cs) (ht : W'.book.todo = W.book.todo) : HotIn T ns (frame W') :=
  ⟨ht.trans h.1, fun n c h1 h2 => h.2 n c (show W.book.cs[n]? = _ by rw [← hc]; exact h1) h2⟩

theorem HotIn.set {n : Nat} {c c' : CState} (h : HotIn T ns (frame W)) (hc : W.book.cs[n]? = some c) (hh : hot c' = true → hot c = true) :
    HotIn T ns (frame { W with book.cs := W.book.cs.set n c' }) := by
  refine ⟨h.1, fun m d hd ht => ?_⟩
  have hd : (W.book.cs.set n c')[m]? = some d := hd
  by_cases hm : n = m
  · subst hm
    rw [List.getElem?_set_self (List.getElem?_eq_some_iff.mp hc).1] at hd
    injection hd with hd
    subst hd
    exact h.2 n c hc (hh ht)
  · rw [List.getElem?_set_ne hm] at hd
    exact h.2 m d hd ht

theorem keepH_setCS {n : Nat} {f : CState → CState} {k : CState → SM γ} (hf : ∀ c, hot (f c) = true → hot c = true) (hk : ∀ c, Keep (HotIn T ns) (k c)) :
    Keep (HotIn T ns) (getCS n >>= fun c => setCS n (f c) >>= fun _ => k c) := by
  refine ⟨fun W a W' hx h => ?_⟩
  obtain ⟨c, W1, h1, h2⟩ := SM.bind_ok hx
  obtain ⟨⟨hc, -⟩, rfl⟩ := getCS_iff.mp h1
  obtain ⟨_, W2, h3, h4⟩ := SM.bind_ok h2
  injection h3 with h3
  obtain ⟨-, rfl⟩ := Prod.mk.inj h3
  exact (hk c).keep _ _ _ h4 (h.set hc (hf c))

theorem hot_inactive {c : CState} {l : Nat} : hot { c with inactive := l + 1 } = true → hot c = true := by
  unfold hot
  cases c.con <;> simp_all

theorem keepH_markInactiveS {n : Nat} : Keep (HotIn T ns) (markInactiveS n) := by
  unfold markInactiveS
  refine Keep.bind (Keep.fr Fr.curLevel) (fun l => ⟨fun W a W' hx h => ?_⟩)
  rw [modify_iff] at hx
  subst hx
  unfold Book.markInactive
  cases hc : W.book.cs[n]? with
  | none => exact h
  | some c =>
    dsimp only
    split
    · exact (h.set hc (hot_inactive (l := l.level))).of rfl rfl
    · exact h
macro_rules | `(tactic| keep_step) => `(tactic| with_reducible exact keepH_markInactiveS)

theorem keepH_sumPropagate {cc : CC} {n : Nat} {ck t : Bool} {l r : Int} {es : List (Int × Nat)} : Keep (HotIn T ns) (sumPropagate cc n ck t l r es) := by
  unfold sumPropagate; keep_auto
theorem keepH_nonlinearPropagate {cc : CC} {n : Nat} {ca cb r : Int} {x y z : Nat} : Keep (HotIn T ns) (nonlinearPropagate cc n ca x y cb z r) := by
  unfold nonlinearPropagate; keep_auto

theorem distinctUpdate_hot {es : List (List (Int × Nat) × Int)} : ∀ {is : List Nat} {c c' : CState} {W W' : World},
    distinctUpdate es is c W = .ok (c', W') → c'.alive = c.alive ∧ c'.todo = c.todo ∧ c'.con = c.con ∧ c'.dirty = []
  | [], c, c', W, W', h => by
    unfold distinctUpdate at h
    obtain ⟨rfl, -⟩ := pure_iff.mp h
    exact ⟨rfl, rfl, rfl, rfl⟩
  | i :: is, c, c', W, W', h => by
    unfold distinctUpdate at h
    cases he : es[i]? with
    | none => rw [he] at h; cases h
    | some e =>
    cases ho : c.assigned[i]? with
    | none => rw [he, ho] at h; cases h
    | some o =>
      rw [he, ho] at h
      obtain ⟨_, W1, _, h⟩ := SM.bind_ok h
      obtain ⟨_, W2, _, h⟩ := SM.bind_ok h
      obtain ⟨_, W3, _, h⟩ := SM.bind_ok h
      have := distinctUpdate_hot h
      exact this

theorem clearTodo_hot {c : CState} : hot c.clearTodo = hot c := rfl

/-- After the propagation of a distinct constraint that is not marked as queued, its bounds are up to date. -/
theorem distinctPropagate_hot {n : Nat} {l : Int} {es : List (List (Int × Nat) × Int)} {r : Bool} {c : CState} (hx : distinctPropagate cc n l es W = .ok (r, W'))
    (hc : W.book.cs[n]? = some c) (ht : c.todo = false) (h : HotIn T (n :: ns) (frame W)) : HotIn T ns (frame W') := by
  unfold distinctPropagate at hx
  obtain ⟨c0, W1, h1, h2⟩ := SM.bind_ok hx
  obtain ⟨⟨hcs, hal⟩, rfl⟩ := getCS_iff.mp h1
  rw [hc] at hcs; injection hcs with hcs; subst hcs
  obtain ⟨c', W2, h3, h4⟩ := SM.bind_ok h2
  obtain ⟨_, W3, h5, h6⟩ := SM.bind_ok h4
  injection h5 with h5
  obtain ⟨-, rfl⟩ := Prod.mk.inj h5
  have hf : W2.book = W1.book := congrArg Prod.snd (fr_distinctUpdate.fr _ _ _ h3)
  obtain ⟨-, e1, -, e2⟩ := distinctUpdate_hot h3
  have hcold : hot c' = false := by
    unfold hot
    rw [e1, ht, e2]
    cases c'.con <;> simp
  have hk : Keep (HotIn T ns) (do
      if !(← distinctTodo cc c' l es (-1) c'.todoLower) then return false
      else if !(← distinctTodo cc c' l es 1 c'.todoUpper) then return false
      else do
        let c ← getCS n
        setCS n c.clearTodo
        return true) := by
    refine Keep.bind (Keep.fr fr_distinctTodo) (fun b => ?_)
    split
    · exact Keep.fr Fr.pure
    · refine Keep.bind (Keep.fr fr_distinctTodo) (fun b => ?_)
      split
      · exact Keep.fr Fr.pure
      · exact keepH_setCS (f := fun c => c.clearTodo) (fun c hc => by rw [← clearTodo_hot]; exact hc) (fun _ => Keep.fr Fr.pure)
  refine hk.keep _ _ _ h6 ⟨by rw [← h.1]; exact congrArg (·.todo) hf, fun m d hd hh => ?_⟩
  have hd : (W2.book.cs.set n c')[m]? = some d := hd
  rw [hf] at hd
  by_cases hm : n = m
  · subst hm
    rw [List.getElem?_set_self (List.getElem?_eq_some_iff.mp hc).1] at hd
    injection hd with hd
    subst hd
    rw [hcold] at hh; cases hh
  · rw [List.getElem?_set_ne hm] at hd
    have := h.2 m d hd hh
    rcases List.mem_cons.mp this with e | e
    · exact absurd e.symm hm
    · exact e

theorem keepH_disjointPropagate {cc : CC} {n : Nat} {l : Int} : Keep (HotIn T ns) (disjointPropagate cc n l) := by
  unfold disjointPropagate
  refine Keep.bind (Keep.fr Fr.getCS) (fun c => ?_)
  refine Keep.bind (Keep.fr fr_disjointLoad) (fun is => ?_)
  refine Keep.bind (Keep.fr fr_disjointRun) (fun p => ?_)
  refine keepH_setCS (f := fun c => { c with intervals := p.2, forceUpdate := false }) (fun c hc => hc) (fun c' => ?_)
  split
  · exact Keep.fr Fr.pure
  · refine Keep.bind (Keep.fr fr_disjointRun) (fun q => ?_)
    exact keepH_setCS (f := fun c => { c with intervals := q.2 }) (fun c hc => hc) (fun _ => Keep.fr Fr.pure)

/-- A state that is not hot can be left out. -/
theorem HotIn.drop {n : Nat} (h : HotIn T (n :: ns) (frame W)) (hn : ∀ c, W.book.cs[n]? = some c → hot c = false) : HotIn T ns (frame W) := by
  refine ⟨h.1, fun m c hc hh => ?_⟩
  rcases List.mem_cons.mp (h.2 m c hc hh) with e | e
  · subst e
    rw [hn c hc] at hh; cases hh
  · exact e

theorem propagateCS_hot {ck r : Bool} {n : Nat} {c : CState} (hx : propagateCS cc ck n W = .ok (r, W'))
    (hc : W.book.cs[n]? = some c) (ht : c.todo = false) (h : HotIn T (n :: ns) (frame W)) : HotIn T ns (frame W') := by
  unfold propagateCS at hx
  obtain ⟨c0, W1, h1, h2⟩ := SM.bind_ok hx
  obtain ⟨⟨hcs, hal⟩, rfl⟩ := getCS_iff.mp h1
  rw [hc] at hcs; injection hcs with hcs; subst hcs
  have cold : (∀ l es, c.con ≠ .distinct l es) → HotIn T ns (frame W1) := by
    intro hd
    refine h.drop (fun d hd' => ?_)
    rw [hc] at hd'; injection hd' with hd'; subst hd'
    unfold hot
    rw [ht]
    cases hcon : c.con with
    | distinct l es => exact absurd hcon (hd l es)
    | _ => simp
  cases hcon : c.con with
  | sum l r es => rw [hcon] at h2; exact keepH_sumPropagate.keep _ _ _ h2 (cold (by simp [hcon]))
  | minimize x es =>
    rw [hcon] at h2
    refine Keep.keep (P := HotIn T ns) (Keep.bind (Keep.fr Fr.get) fun W => Keep.bind (Keep.fr (by fr_auto)) fun r => ?_) _ _ _ h2 (cold (by simp [hcon]))
    split
    · exact Keep.fr Fr.pure
    · exact keepH_sumPropagate
  | distinct l es => rw [hcon] at h2; exact distinctPropagate_hot h2 hc ht h
  | nonlinear l ca x y cb z r => rw [hcon] at h2; exact keepH_nonlinearPropagate.keep _ _ _ h2 (cold (by simp [hcon]))
  | disjoint l es => rw [hcon] at h2; exact keepH_disjointPropagate.keep _ _ _ h2 (cold (by simp [hcon]))

theorem checkOne_hot {ck r : Bool} {n : Nat} (hx : checkOne cc ck n W = .ok (r, W')) (h : HotIn T (n :: ns) (frame W)) : HotIn T ns (frame W') := by
  unfold checkOne at hx
  obtain ⟨c, W1, h1, h2⟩ := SM.bind_ok hx
  obtain ⟨⟨hc, hal⟩, rfl⟩ := getCS_iff.mp h1
  obtain ⟨_, W2, h3, h4⟩ := SM.bind_ok h2
  injection h3 with h3
  obtain ⟨-, rfl⟩ := Prod.mk.inj h3
  obtain ⟨f, W3, h5, h6⟩ := SM.bind_ok h4
  have e3 : frame W3 = _ := Fr.qFalse.fr _ _ _ h5
  have hlt := (List.getElem?_eq_some_iff.mp hc).1
  have hset : HotIn T (n :: ns) (frame W3) := by
    rw [e3]
    refine h.set hc (fun hh => ?_)
    unfold hot at hh ⊢
    simp only [Bool.false_or, Bool.and_eq_true] at hh
    simp [hh.1, hh.2]
  have hcs : W3.book.cs[n]? = some { c with todo := false } := by
    rw [show W3.book = _ from congrArg Prod.snd e3]
    exact List.getElem?_set_self hlt
  cases f with
  | false => exact propagateCS_hot h6 hcs rfl hset
  | true =>
    obtain ⟨_, W4, h7, h8⟩ := SM.bind_ok h6
    obtain ⟨-, rfl⟩ := pure_iff.mp h8
    refine (keepH_markInactiveS.keep _ _ _ h7 hset).drop (fun d hd => ?_)
    unfold markInactiveS at h7
    obtain ⟨l, W5, h9, h10⟩ := SM.bind_ok h7
    have e5 : frame W5 = frame W3 := Fr.curLevel.fr _ _ _ h9
    rw [modify_iff] at h10
    subst h10
    have e5 : W5.book = W3.book := congrArg Prod.snd e5
    have hd : (W5.book.markInactive l.level n).cs[n]? = some d := hd
    rw [e5] at hd
    unfold Book.markInactive at hd
    rw [hcs] at hd
    dsimp only at hd
    have hl3 : n < W3.book.cs.length := (List.getElem?_eq_some_iff.mp hcs).1
    split at hd
    · simp only at hd
      rw [List.getElem?_set_self hl3] at hd
      injection hd with hd
      subst hd
      unfold hot
      cases c.con <;> simp
    · next hn =>
      rw [hcs] at hd
      injection hd with hd
      subst hd
      unfold hot
      unfold CState.removable CState.markedInactive at hn
      cases hcon : c.con <;> simp_all

theorem checkTodo_hot {ck : Bool} : ∀ {ns : List Nat} {W W' : World}, checkTodo cc ck ns W = .ok (true, W') → HotIn T ns (frame W) → HotIn T [] (frame W')
  | [], W, W', hx, h => by
    unfold checkTodo at hx
    obtain ⟨-, rfl⟩ := pure_iff.mp hx
    exact h
  | n :: ns, W, W', hx, h => by
    unfold checkTodo at hx
    obtain ⟨r, W1, h1, h2⟩ := SM.bind_ok hx
    cases r with
    | false =>
      obtain ⟨_, W2, -, h4⟩ := SM.bind_ok h2
      obtain ⟨h5, -⟩ := pure_iff.mp h4
      cases h5
    | true => exact checkTodo_hot h2 (checkOne_hot h1 h)

/-! ### Functions that do not change constraint states -/

theorem Keep.sameH {x : SM α} (h : ∀ W a W', x W = .ok (a, W') → W'.book.cs = W.book.cs ∧ W'.book.todo = W.book.todo) : Keep (fun F => HotQ F.2) x :=
  ⟨fun W a W' hx hp => HotQ.of hp (h W a W' hx).1 (h W a W' hx).2⟩

/-- All such states are queued. -/
def HotF (F : List VarState × Book) : Prop := HotQ F.2

theorem keepHot_updateLower {l v : Nat} {x : Int} : Keep HotF (updateLower l v x) :=
  Keep.sameH (fun W u W' h => by obtain ⟨y, -, e⟩ := updateLower_frame h; have e := congrArg Prod.snd e; simp only [frame] at e; rw [e]; exact ⟨rfl, rfl⟩)
theorem keepHot_updateUpper {l v : Nat} {x : Int} : Keep HotF (updateUpper l v x) :=
  Keep.sameH (fun W u W' h => by obtain ⟨y, -, e⟩ := updateUpper_frame h; have e := congrArg Prod.snd e; simp only [frame] at e; rw [e]; exact ⟨rfl, rfl⟩)
macro_rules | `(tactic| keep_step) => `(tactic| with_reducible exact keepHot_updateLower)
macro_rules | `(tactic| keep_step) => `(tactic| with_reducible exact keepHot_updateUpper)
theorem keepHot_updateUpperLit {cc : CC} {l v : Nat} {lit value sl : Int} : Keep HotF (updateUpperLit cc l v lit value sl) := by
  unfold updateUpperLit; keep_auto
theorem keepHot_updateLowerLit {cc : CC} {l v : Nat} {lit value sl : Int} : Keep HotF (updateLowerLit cc l v lit value sl) := by
  unfold updateLowerLit; keep_auto
macro_rules | `(tactic| keep_step) => `(tactic| with_reducible exact keepHot_updateUpperLit)
macro_rules | `(tactic| keep_step) => `(tactic| with_reducible exact keepHot_updateLowerLit)
theorem keepHot_propagateFacts {cc : CC} {l : Nat} : ∀ {fs : List (Int × Nat × Int × Int)}, Keep HotF (propagateFacts cc l fs)
  | [] => by unfold propagateFacts; keep_auto
  | (a, b, c, d) :: fs => by
    have ih := keepHot_propagateFacts (cc := cc) (l := l) (fs := fs)
    unfold propagateFacts; keep_auto
macro_rules | `(tactic| keep_step) => `(tactic| with_reducible exact keepHot_propagateFacts)
theorem keepHot_updateDomain {cc : CC} {lit : Int} : Keep HotF (updateDomain cc lit) := by unfold updateDomain; keep_auto
macro_rules | `(tactic| keep_step) => `(tactic| with_reducible exact keepHot_updateDomain)
theorem keepHot_integrateFacts {cc : CC} : Keep HotF (integrateFacts cc) := by unfold integrateFacts; keep_auto

theorem keepHot_modify {f : World → World} (h : ∀ W, HotQ W.book → HotQ (f W).book) : Keep HotF (modify f) :=
  ⟨fun W u W' hx hk => by rw [modify_iff] at hx; subst hx; exact h W hk⟩

theorem keepHot_pushLevel {n : Nat} : Keep HotF (pushLevel n) := by
  unfold pushLevel
  exact Keep.bind (Keep.fr Fr.curLevel) (fun l => Keep.whenS (keepHot_modify (fun _ h => h.of rfl rfl)))

/-! ### Queueing -/

theorem HotQ.mark {b : Book} {n : Nat} (h : HotQ b) : HotQ (b.markTodo n) := by
  unfold Book.markTodo
  cases hc : b.cs[n]? with
  | none => exact h
  | some c =>
    dsimp only
    split
    · exact h
    · split
      · exact h
      · intro m d hd hh
        simp only [List.mem_append, List.mem_singleton]
        by_cases hm : n = m
        · exact .inr hm.symm
        · simp only at hd
          rw [List.getElem?_set_ne hm] at hd
          exact .inl (h m d hd hh)

theorem HotQ.marks : ∀ {ns : List Nat} {b : Book}, HotQ b → HotQ (ns.foldl Book.markTodo b)
  | [], _, h => h
  | n :: ns, b, h => by rw [List.foldl_cons]; exact HotQ.marks h.mark

/-- Replacing a state keeps the condition if the new one is hot only if it is marked as queued in both or the constraint is queued afterwards. -/
theorem HotQ.replace {b : Book} {n : Nat} {c c' : CState} (h : HotQ b) (hc : b.cs[n]? = some c) (hh : hot c' = true → hot c = true) : HotQ { b with cs := b.cs.set n c' } := by
  intro m d hd ht
  simp only at hd ⊢
  by_cases hm : n = m
  · subst hm
    rw [List.getElem?_set_self (List.getElem?_eq_some_iff.mp hc).1] at hd
    injection hd with hd
    subst hd
    exact h n c hc (hh ht)
  · rw [List.getElem?_set_ne hm] at hd
    exact h m d hd ht

theorem HotQ.update {b : Book} {n : Nat} {c : CState} {i d : Int} {r : Bool × CState} (h : HotQ b) (hc : b.cs[n]? = some c) (hu : c.update i d = .ok r) :
    HotQ (if r.1 then Book.markTodo { b with cs := b.cs.set n r.2 } n else { b with cs := b.cs.set n r.2 }) := by
  have hlt := (List.getElem?_eq_some_iff.mp hc).1
  have plain : (hot r.2 = true → hot c = true) → HotQ (if r.1 then Book.markTodo { b with cs := b.cs.set n r.2 } n else { b with cs := b.cs.set n r.2 }) := by
    intro hh
    split
    · exact (h.replace hc hh).mark
    · exact h.replace hc hh
  unfold CState.update at hu
  have hs : ∀ {r : Bool × CState}, (∃ a b e, c.con = .sum a b e) ∨ (∃ a e, c.con = .minimize a e) → c.updateSum i d = .ok r → hot r.2 = true → hot c = true := by
    intro r hk h
    unfold CState.updateSum at h
    split at h
    · cases h
    · rcases hk with ⟨a, b, e, hk⟩ | ⟨a, e, hk⟩ <;> split at h <;> (injection h with h; subst h; simp [hot, hk])
  split at hu
  · next e => exact plain (hs (.inl ⟨_, _, _, e⟩) hu)
  · next e => exact plain (hs (.inr ⟨_, _, e⟩) hu)
  · next lit es e =>
    injection hu with hu
    have hr1 : r.1 = true := by rw [← hu]
    have hr : r.2.alive = c.alive ∧ r.2.todo = c.todo ∧ r.2.inactive = c.inactive := by
      rw [← hu]
      unfold CState.markTodoElem CState.markDirty
      split_ifs <;> exact ⟨rfl, rfl, rfl⟩
    rw [if_pos hr1]
    unfold Book.markTodo
    have hget : (b.cs.set n r.2)[n]? = some r.2 := List.getElem?_set_self hlt
    simp only [hget]
    have key : hot r.2 = true → r.2.markedInactive = true → hot c = true := by
      intro hh hm
      unfold CState.markedInactive at hm
      unfold hot at hh ⊢
      rw [hr.1, hr.2.1] at hh
      have : (r.2.inactive == 0) = false := by simp at hm ⊢; omega
      rw [this] at hh
      have hz : ((match r.2.con with | .distinct _ _ => !r.2.dirty.isEmpty && false | _ => false) : Bool) = false := by split <;> simp
      rw [hz] at hh
      simp at hh
      simp [hh]
    split
    · next hm => exact h.replace hc (fun hh => key hh hm)
    · split
      · next hm ht =>
        refine h.replace hc (fun hh => ?_)
        rw [hr.2.1] at ht
        unfold hot at hh ⊢
        rw [hr.1] at hh
        simp at hh
        simp [hh.1, ht]
      · intro m x hx hh
        simp only [List.mem_append, List.mem_singleton]
        by_cases hm : n = m
        · exact .inr hm.symm
        · simp only [List.set_set] at hx
          rw [List.getElem?_set_ne hm] at hx
          exact .inl (h m x hx hh)
  · injection hu with hu; subst hu; exact plain id
  · injection hu with hu; subst hu; exact plain id

theorem updateWatches_hot {level var : Nat} {d : Int} : ∀ {ws : List (Int × Nat)} {b : Book} {p : List (Int × Nat) × Book},
    Book.updateWatches level var d ws b = .ok p → HotQ b → HotQ p.2
  | [], b, p, h, hq => by
    injection h with h; subst h
    exact hq
  | (i, n) :: ws, b, p, h, hq => by
    unfold Book.updateWatches at h
    cases hc : b.cs[n]? with
    | none => rw [hc] at h; cases h
    | some c =>
      rw [hc] at h
      dsimp only at h
      split at h
      · exact updateWatches_hot h (hq.of rfl rfl)
      · cases hu : c.update i d with
        | error e => rw [hu] at h; cases h
        | ok r =>
          rw [hu] at h
          have hq' := hq.update hc hu
          simp only [bind, Except.bind] at h
          split at h
          · cases h
          · next q hx =>
            simp only [pure, Except.pure, Except.ok.injEq] at h
            subst h
            have := updateWatches_hot hx hq'
            exact this

theorem updateConstraints_hot {level var : Nat} {d : Int} {b b' : Book} (h : Book.updateConstraints level var d b = .ok b') (hq : HotQ b) : HotQ b' := by
  unfold Book.updateConstraints at h
  cases hw : b.watches[var]? with
  | none => rw [hw] at h; cases h
  | some ws =>
    rw [hw] at h
    dsimp only at h
    cases hu : Book.updateWatches level var d ws b with
    | error e => rw [hu] at h; cases h
    | ok p =>
      rw [hu] at h
      simp only [bind, Except.bind, pure, Except.pure, Except.ok.injEq] at h
      subst h
      exact (updateWatches_hot hu hq).of rfl rfl

theorem updateUppers_hot {level : Nat} : ∀ {vs : List Nat} {b b' : Book}, Book.updateUppers level vs b = .ok b' → HotQ b → HotQ b'
  | [], b, b', h, hq => by injection h with h; subst h; exact hq.of rfl rfl
  | v :: vs, b, b', h, hq => by
    unfold Book.updateUppers at h
    cases hb : Book.updateConstraints level v (b.udiff.getD v 0) b with
    | error e => rw [hb] at h; cases h
    | ok b1 =>
      rw [hb] at h
      exact updateUppers_hot h ((updateConstraints_hot hb hq).of rfl rfl)

theorem updateLowers_hot {level : Nat} : ∀ {vs : List Nat} {b b' : Book}, Book.updateLowers level vs b = .ok b' → HotQ b → HotQ b'
  | [], b, b', h, hq => by injection h with h; subst h; exact hq.of rfl rfl
  | v :: vs, b, b', h, hq => by
    unfold Book.updateLowers at h
    cases hb : Book.updateConstraints level v (b.ldiff.getD v 0) b with
    | error e => rw [hb] at h; cases h
    | ok b1 =>
      rw [hb] at h
      exact updateLowers_hot h ((updateConstraints_hot hb hq).of rfl rfl)

theorem keepHot_deliver {level : Nat} : Keep HotF (deliver level) := by
  refine ⟨fun W u W' h hq => ?_⟩
  unfold deliver at h
  obtain ⟨W1, W2, h1, h2⟩ := SM.bind_ok h
  obtain ⟨rfl, rfl⟩ := get_iff.mp h1
  obtain ⟨b1, W3, h3, h4⟩ := SM.bind_ok h2
  obtain ⟨h3, rfl⟩ := liftRes_iff.mp h3
  obtain ⟨b2, W4, h5, h6⟩ := SM.bind_ok h4
  obtain ⟨g5, rfl⟩ := liftRes_iff.mp h5
  rw [modify_iff] at h6
  subst h6
  exact updateLowers_hot g5 (updateUppers_hot h3 hq)

theorem checkLoop_hot {ck : Bool} {level : Nat} : ∀ {n : Nat} {W W' : World}, checkLoop cc ck level n W = .ok (true, W') → HotQ W.book → HotQ W'.book
  | 0, W, W', h, _ => by cases h
  | n + 1, W, W', h, hq => by
    unfold checkLoop at h
    obtain ⟨b, W1, h1, h2⟩ := SM.bind_ok h
    have q1 := keepHot_integrateFacts.keep _ _ _ h1 hq
    cases b with
    | false => obtain ⟨h3, -⟩ := pure_iff.mp h2; cases h3
    | true =>
      obtain ⟨_, W2, h3, h4⟩ := SM.bind_ok h2
      have q2 : HotQ W2.book := keepHot_deliver.keep _ _ _ h3 q1
      obtain ⟨W3, W3', h5, h6⟩ := SM.bind_ok h4
      obtain ⟨rfl, rfl⟩ := get_iff.mp h5
      obtain ⟨r, W4, h7, h8⟩ := SM.bind_ok h6
      obtain ⟨_, W5, h9, h10⟩ := SM.bind_ok h8
      rw [modify_iff] at h9
      obtain ⟨W6, W6', h11, h12⟩ := SM.bind_ok h10
      obtain ⟨e6, e6'⟩ := get_iff.mp h11
      rw [e6, e6'] at h12
      cases r with
      | false =>
        simp only [Bool.not_false, Bool.true_or, if_true] at h12
        obtain ⟨h13, -⟩ := pure_iff.mp h12; cases h13
      | true =>
        have q4 := checkTodo_hot (T := _) h7 ⟨rfl, q2⟩
        have q6 : HotQ W5.book := by
          subst h9
          intro m c hc hh
          exact absurd (q4.2 m c hc hh) List.not_mem_nil
        split at h12
        · obtain ⟨-, rfl⟩ := pure_iff.mp h12
          exact q6
        · exact checkLoop_hot h12 q6

theorem solverCheck_hot {ck : Bool} {n : Nat} (h : solverCheck cc ck n W = .ok (true, W')) (hq : HotQ W.book) : HotQ W'.book := by
  unfold solverCheck at h
  obtain ⟨l, W1, h1, h2⟩ := SM.bind_ok h
  have e1 : W1.book = W.book := congrArg Prod.snd (Fr.curLevel.fr _ _ _ h1)
  obtain ⟨W2, W2', h3, h4⟩ := SM.bind_ok h2
  obtain ⟨rfl, rfl⟩ := get_iff.mp h3
  split at h4
  · obtain ⟨-, rfl⟩ := pure_iff.mp h4
    rw [e1]; exact hq
  · exact checkLoop_hot h4 (by rw [e1]; exact hq)

theorem keepHot_propagateLits : ∀ {ls : List Int}, Keep HotF (propagateLits cc ls)
  | [] => Keep.fr Fr.pure
  | l :: ls => by
    unfold propagateLits propagateLit
    refine Keep.bind (Keep.bind (keepHot_modify (fun W h => h.marks)) (fun _ => keepHot_updateDomain)) (fun b => ?_)
    split
    · exact Keep.fr Fr.pure
    · exact keepHot_propagateLits

theorem keepHot_solverPropagate {ls : List Int} : Keep HotF (solverPropagate cc ls) := by
  unfold solverPropagate
  exact Keep.bind keepHot_pushLevel (fun _ => keepHot_propagateLits)

theorem factLoop_hot {ck : Bool} {t : List SEv → List Int} {fuel : Nat} : ∀ {n : Nat} {W W' : World}, factLoop cc t ck fuel n W = .ok (true, W') → HotQ W.book → HotQ W'.book
  | 0, W, W', h, _ => by cases h
  | n + 1, W, W', h, hq => by
    unfold factLoop at h
    obtain ⟨b, W1, h1, h2⟩ := SM.bind_ok h
    have q1 : HotQ W1.book := (Keep.fr (P := HotF) (by fr_auto)).keep _ _ _ h1 hq
    cases b with
    | false => obtain ⟨h3, -⟩ := pure_iff.mp h2; cases h3
    | true =>
      obtain ⟨W2, W2', h3, h4⟩ := SM.bind_ok h2
      obtain ⟨rfl, rfl⟩ := get_iff.mp h3
      dsimp only at h4
      split at h4
      · obtain ⟨-, rfl⟩ := pure_iff.mp h4
        exact q1
      · obtain ⟨b, W3, h5, h6⟩ := SM.bind_ok h4
        have q3 : HotQ W3.book := keepHot_solverPropagate.keep _ _ _ h5 q1
        cases b with
        | false => obtain ⟨h7, -⟩ := pure_iff.mp h6; cases h7
        | true =>
          obtain ⟨_, W4, h7, h8⟩ := SM.bind_ok h6
          rw [modify_iff] at h7
          obtain ⟨b, W5, h9, h10⟩ := SM.bind_ok h8
          cases b with
          | false => obtain ⟨h11, -⟩ := pure_iff.mp h10; cases h11
          | true => exact factLoop_hot h10 (solverCheck_hot h9 (by subst h7; exact q3.of rfl rfl))

/-! ### Calls -/

theorem initState_cold {c : Constr} {x : CState} (h : initState c W = .ok (x, W')) : hot x = false := by
  cases c with
  | sum l r es =>
    obtain ⟨p, W1, -, h2⟩ := SM.bind_ok h
    obtain ⟨rfl, -⟩ := pure_iff.mp h2
    rfl
  | minimize a es =>
    obtain ⟨p, W1, -, h2⟩ := SM.bind_ok h
    obtain ⟨rfl, -⟩ := pure_iff.mp h2
    rfl
  | disjoint l es => obtain ⟨rfl, -⟩ := pure_iff.mp h; rfl
  | nonlinear l ca x y cb z r => obtain ⟨rfl, -⟩ := pure_iff.mp h; rfl
  | distinct l es =>
    have key : ∀ {es : List (List (Int × Nat) × Int)} {i : Nat} {c x : CState} {W W' : World}, distinctInit i es c W = .ok (x, W') → hot c = false → hot x = false := by
      intro es
      induction es with
      | nil =>
        intro i c x W W' h hc
        obtain ⟨rfl, -⟩ := pure_iff.mp h
        exact hc
      | cons e es ih =>
        intro i c x W W' h hc
        obtain ⟨p, W1, -, h2⟩ := SM.bind_ok h
        exact ih h2 hc
    exact key h rfl

theorem hot_addConstraint {c : Constr} {n : Nat} (h : addConstraint c W = .ok (n, W')) (hq : HotQ W.book) : HotQ W'.book := by
  unfold addConstraint at h
  obtain ⟨cs, W1, h1, h2⟩ := SM.bind_ok h
  have e1 : W1.book = W.book := by rw [(initState_eff h1).1]
  obtain ⟨W2, W2', h3, h4⟩ := SM.bind_ok h2
  obtain ⟨rfl, rfl⟩ := get_iff.mp h3
  dsimp only at h4
  obtain ⟨_, W3, h5, h6⟩ := SM.bind_ok h4
  rw [modify_iff] at h5
  obtain ⟨_, W4, h7, h8⟩ := SM.bind_ok h6
  obtain ⟨_, W5, h9, h10⟩ := SM.bind_ok h8
  rw [modify_iff] at h9
  obtain ⟨-, rfl⟩ := pure_iff.mp h10
  have q3 : HotQ W3.book := by
    subst h5
    intro m d hd hh
    simp only at hd ⊢
    rw [e1] at hd ⊢
    rw [List.getElem?_append] at hd
    split at hd
    · exact hq m d hd hh
    · rw [List.getElem?_singleton] at hd
      split at hd
      · injection hd with hd
        subst hd
        rw [initState_cold h1] at hh; cases hh
      · cases hd
  have key : ∀ {ws : List (Int × Nat)} {m : Nat} {W W' : World} {u : Unit}, addVarWatches m ws W = .ok (u, W') → W'.book.cs = W.book.cs ∧ W'.book.todo = W.book.todo := by
    intro ws
    induction ws with
    | nil =>
      intro m W W' u h
      obtain ⟨-, rfl⟩ := pure_iff.mp h
      exact ⟨rfl, rfl⟩
    | cons w ws ih =>
      intro m W W' u h
      unfold addVarWatches addVarWatch at h
      obtain ⟨_, W1, h1, h2⟩ := SM.bind_ok h
      obtain ⟨a, b⟩ := ih h2
      simp only [smok] at h1
      obtain ⟨_, _, ⟨rfl, rfl⟩, _, _, ⟨-, rfl⟩, rfl⟩ := h1
      exact ⟨a, b⟩
  obtain ⟨a, b⟩ := key h7
  subst h9
  exact (q3.of a b).mark

theorem hot_removeConstraint {n : Nat} {u : Unit} (h : removeConstraint n W = .ok (u, W')) (hq : HotQ W.book) : HotQ W'.book := by
  unfold removeConstraint at h
  obtain ⟨W1, W1', h1, h2⟩ := SM.bind_ok h
  obtain ⟨e0, e0'⟩ := get_iff.mp h1
  rw [e0, e0'] at h2
  cases hc : W.book.cs[n]? with
  | none => rw [hc] at h2; cases h2
  | some c =>
    rw [hc] at h2
    dsimp only at h2
    obtain ⟨_, W3, h5, h6⟩ := SM.bind_ok h2
    obtain ⟨l, W4, h7, h8⟩ := SM.bind_ok h6
    obtain ⟨_, W5, h9, h10⟩ := SM.bind_ok h8
    rw [modify_iff] at h10
    have key : ∀ {ws : List (Int × Nat)} {m : Nat} {W W' : World} {u : Unit}, removeVarWatches m ws W = .ok (u, W') → W'.book.cs = W.book.cs ∧ W'.book.todo = W.book.todo := by
      intro ws
      induction ws with
      | nil =>
        intro m W W' u h
        obtain ⟨-, rfl⟩ := pure_iff.mp h
        exact ⟨rfl, rfl⟩
      | cons w ws ih =>
        intro m W W' u h
        unfold removeVarWatches removeVarWatch at h
        obtain ⟨_, W1, h1, h2⟩ := SM.bind_ok h
        obtain ⟨a, b⟩ := ih h2
        simp only [smok] at h1
        obtain ⟨_, _, ⟨rfl, rfl⟩, _, _, ⟨-, rfl⟩, _, _, ⟨-, rfl⟩, rfl⟩ := h1
        exact ⟨a, b⟩
    obtain ⟨a, b⟩ := key h5
    have e4 : W4.book = W3.book := congrArg Prod.snd (Fr.curLevel.fr _ _ _ h7)
    have e5 : W5.book = W4.book := congrArg Prod.snd ((by fr_auto : Fr (assertS (l.level == 0))).fr _ _ _ h9)
    subst h10
    have q5 : HotQ W5.book := hq.of (by rw [e5, e4, a]) (by rw [e5, e4, b])
    show HotQ (W5.book.removeMarks n)
    unfold Book.removeMarks
    cases hc5 : W5.book.cs[n]? with
    | none => exact q5
    | some c5 =>
      intro m d hd hh
      simp only at hd ⊢
      by_cases hm : n = m
      · subst hm
        rw [List.getElem?_set_self (List.getElem?_eq_some_iff.mp hc5).1] at hd
        injection hd with hd
        subst hd
        simp [hot] at hh
      · rw [List.getElem?_set_ne hm] at hd
        have := q5 m d hd hh
        split
        · exact (List.mem_erase_of_ne (Ne.symm hm)).mpr this
        · exact this

theorem keepHot_splitFirst : ∀ {vs : List Nat}, Keep HotF (splitFirst cc vs)
  | [] => Keep.fr Fr.pure
  | v :: vs => by
    unfold splitFirst
    refine Keep.bind (Keep.fr fr_splitVar) (fun b => ?_)
    split
    · exact Keep.bind (keepHot_modify (fun _ h => h.of rfl rfl)) (fun _ => Keep.fr Fr.pure)
    · exact keepHot_splitFirst

theorem hot_step {op : Op} (h : op.exec W = .ok (true, W')) (hu : op ≠ .undo) (hr : ∀ rem, op ≠ .removeConstraints rem) (hq : HotQ W.book) : HotQ W'.book := by
  have kp : ∀ {α : Type} {x : SM α} {a : α}, Keep HotF x → x W = .ok (a, W') → HotQ W'.book := fun hk hx => hk.keep _ _ _ hx hq
  cases op with
  | addVar lo hi' =>
    obtain ⟨_, W1, h1, h2⟩ := SM.bind_ok h
    obtain ⟨-, rfl⟩ := pure_iff.mp h2
    obtain ⟨v, h3⟩ := discard_iff.mp h1
    injection h3 with h3
    obtain ⟨-, rfl⟩ := Prod.mk.inj h3
    exact hq.of rfl rfl
  | undo => exact absurd rfl hu
  | removeConstraints rem => exact absurd rfl (hr rem)
  | addConstraint c =>
    obtain ⟨_, W1, h1, h2⟩ := SM.bind_ok h
    obtain ⟨-, rfl⟩ := pure_iff.mp h2
    obtain ⟨v, h3⟩ := discard_iff.mp h1
    exact hot_addConstraint h3 hq
  | removeConstraint n =>
    obtain ⟨_, W1, h1, h2⟩ := SM.bind_ok h
    obtain ⟨-, rfl⟩ := pure_iff.mp h2
    exact hot_removeConstraint h1 hq
  | updateMinimize n l b =>
    refine kp (Keep.bind (keepHot_modify (fun W hq => ?_)) (fun _ => Keep.fr Fr.pure)) h
    show HotQ (W.book.updateMinimize n l b)
    unfold Book.updateMinimize
    split_ifs
    · exact HotQ.mark (b := { W.book with minimizeBound := some b, minimizeLevel := l }) (hq.of rfl rfl)
    · exact HotQ.mark (b := { W.book with minimizeLevel := l }) (hq.of rfl rfl)
    · exact hq
  | enable => rw [(enable_iff.mp h).2]; exact hq.of rfl rfl
  | fresh => exact kp (Keep.fr fr_fresh) h
  | post e => exact kp (Keep.fr fr_post) h
  | literal cc v x => exact kp (Keep.bind (Keep.discard (Keep.fr fr_getLiteral)) (fun _ => Keep.fr Fr.pure)) h
  | updLiteral cc v x t => exact kp (Keep.bind (Keep.discard (Keep.fr fr_updateLiteral)) (fun _ => Keep.fr Fr.pure)) h
  | simple cc l co v r s => exact kp (Keep.fr fr_addSimple) h
  | dom cc l v d => exact kp (Keep.fr fr_addDom) h
  | propagate cc ls => exact kp keepHot_solverPropagate h
  | check cc b n => exact solverCheck_hot h hq
  | simplify cc t b n => exact factLoop_hot (show factLoop cc t b n n W = _ from h) hq
  | decide cc l => exact kp (Keep.bind (Keep.discard (Keep.fr fr_solverDecide)) (fun _ => Keep.fr Fr.pure)) h
  | checkFull cc b =>
    refine kp (Keep.bind ?_ (fun _ => Keep.fr Fr.pure)) h
    unfold solverCheckFull
    refine Keep.bind (Keep.fr (by fr_auto)) (fun W => ?_)
    dsimp only
    refine Keep.bind ?_ (fun s => ?_)
    · split
      · exact Keep.fr fr_splitEach
      · exact keepHot_splitFirst
    · exact Keep.fr (by fr_auto)
  | updateBounds cc o b n =>
    have h : updateBounds cc o b n W = .ok (true, W') := h
    unfold Clingcon.updateBounds at h
    obtain ⟨r, W1, h1, h2⟩ := SM.bind_ok h
    have e1 : W1.book = W.book := congrArg Prod.snd (fr_takeBounds.fr _ _ _ h1)
    cases r with
    | false => obtain ⟨h3, -⟩ := pure_iff.mp h2; cases h3
    | true => exact solverCheck_hot h2 (by rw [e1]; exact hq)
  | update n =>
    refine kp (Keep.bind ?_ (fun _ => Keep.fr Fr.pure)) h
    unfold solverUpdate
    exact Keep.bind (keepHot_modify (fun _ hq => hq.of rfl rfl)) (fun _ => Keep.bind (Keep.fr Fr.get) (fun W => Keep.fr fr_updateStep))

end Clingcon
