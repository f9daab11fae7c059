import Verif.Spec.Queue
import Verif.Proof.RunSound

/-! The queue of constraints, the watches and the existence of constraints. -/
set_option linter.unusedSimpArgs false
set_option linter.unusedVariables false
namespace Clingcon
open Spec VarState

/-- Whether a constraint exists and whether it is marked as queued. -/
def flag (c : CState) : Bool × Bool := (c.alive, c.todo)

/-- Watches, removed watches, queue, and flags of the constraints. -/
structure QView where
  watches : List (List (Int × Nat))
  removed : List (Nat × Int × Nat)
  todo : List Nat
  flags : List (Bool × Bool)

/-- The view of the state. -/
def qview (b : Book) : QView := ⟨b.watches, b.removed, b.todo, b.cs.map flag⟩

/-- The view is the given one. -/
def SameQ (K : QView) (F : List VarState × Book) : Prop := qview F.2 = K

variable {α γ : Type} {W W' : World} {K : QView} {cc : CC}

theorem map_flag_eq {cs cs' : List CState} (hl : cs'.length = cs.length) (h : ∀ (n : Nat) c, cs[n]? = some c → ∃ c', cs'[n]? = some c' ∧ flag c' = flag c) :
    cs'.map flag = cs.map flag := by
  apply List.ext_getElem?
  intro n
  rw [List.getElem?_map, List.getElem?_map]
  cases hc : cs[n]? with
  | none =>
    have : cs'[n]? = none := by
      rw [List.getElem?_eq_none_iff] at hc ⊢; omega
    rw [this]
  | some c =>
    obtain ⟨c', h1, h2⟩ := h n c hc
    rw [h1]; simp [h2]

theorem map_flag_set {cs : List CState} {n : Nat} {c c' : CState} (hc : cs[n]? = some c) (h : flag c' = flag c) : (cs.set n c').map flag = cs.map flag := by
  refine map_flag_eq (by simp) (fun m d hd => ?_)
  by_cases hm : n = m
  · subst hm
    rw [hc] at hd; injection hd with hd; subst hd
    refine ⟨c', ?_, h⟩
    rw [List.getElem?_set_self (List.getElem?_eq_some_iff.mp hc).1]
  · exact ⟨d, by rw [List.getElem?_set_ne hm]; exact hd, rfl⟩

theorem qview_set {b : Book} {n : Nat} {c c' : CState} (hc : b.cs[n]? = some c) (h : flag c' = flag c) {ia : List Nat} :
    qview { b with cs := b.cs.set n c', inactive := ia } = qview b := by
  unfold qview
  rw [map_flag_set hc h]

theorem keepQ_setCS {n : Nat} {f : CState → CState} {k : CState → SM γ} (hf : ∀ c, flag (f c) = flag c) (hk : ∀ c, Keep (SameQ K) (k c)) :
    Keep (SameQ K) (getCS n >>= fun c => setCS n (f c) >>= fun _ => k c) := by
  refine ⟨fun W a W' hx h => ?_⟩
  obtain ⟨c, W1, h1, h2⟩ := SM.bind_ok hx
  obtain ⟨⟨hc, -⟩, rfl⟩ := getCS_iff.mp h1
  obtain ⟨_, W2, h3, h4⟩ := SM.bind_ok h2
  injection h3 with h3
  obtain ⟨-, rfl⟩ := Prod.mk.inj h3
  refine (hk c).keep _ _ _ h4 ?_
  rw [← h]
  exact qview_set hc (hf c)

theorem Keep.modQ {f : Book → Book} (h : ∀ b, qview (f b) = qview b) : Keep (SameQ K) (modify (fun W => { W with book := f W.book }) : SM Unit) := by
  refine ⟨fun W a W' hx hp => ?_⟩
  rw [modify_iff] at hx
  subst hx
  exact (h _).trans hp

theorem markInactive_qview {b : Book} {l n : Nat} : qview (b.markInactive l n) = qview b := by
  unfold Book.markInactive
  cases hc : b.cs[n]? with
  | none => rfl
  | some c =>
    dsimp only
    split
    · exact qview_set (c' := { c with inactive := l + 1 }) hc rfl
    · rfl

theorem keepQ_markInactiveS {n : Nat} : Keep (SameQ K) (markInactiveS n) := by
  unfold markInactiveS
  exact Keep.bind (Keep.fr Fr.curLevel) (fun l => Keep.modQ (fun b => markInactive_qview))
macro_rules | `(tactic| keep_step) => `(tactic| with_reducible exact keepQ_markInactiveS)

theorem keepQ_sumPropagate {cc : CC} {n : Nat} {ck t : Bool} {l r : Int} {es : List (Int × Nat)} : Keep (SameQ K) (sumPropagate cc n ck t l r es) := by
  unfold sumPropagate; keep_auto
macro_rules | `(tactic| keep_step) => `(tactic| with_reducible exact keepQ_sumPropagate)

theorem keepQ_nonlinearPropagate {cc : CC} {n : Nat} {ca cb r : Int} {x y z : Nat} : Keep (SameQ K) (nonlinearPropagate cc n ca x y cb z r) := by
  unfold nonlinearPropagate; keep_auto
macro_rules | `(tactic| keep_step) => `(tactic| with_reducible exact keepQ_nonlinearPropagate)

theorem distinctUpdate_flag {es : List (List (Int × Nat) × Int)} : ∀ {is : List Nat} {c c' : CState} {W W' : World},
    distinctUpdate es is c W = .ok (c', W') → flag c' = flag c
  | [], c, c', W, W', h => by
    unfold distinctUpdate at h
    obtain ⟨rfl, -⟩ := pure_iff.mp h
    rfl
  | i :: is, c, c', W, W', h => by
    unfold distinctUpdate at h
    cases he : es[i]? with
    | none => rw [he] at h; cases h
    | some e =>
    cases ho : c.assigned[i]? with
    | none => rw [he, ho] at h; cases h
    | some o =>
      rw [he, ho] at h
      obtain ⟨_, W1, _, h⟩ := SM.bind_ok h
      obtain ⟨_, W2, _, h⟩ := SM.bind_ok h
      obtain ⟨_, W3, _, h⟩ := SM.bind_ok h
      have := distinctUpdate_flag h
      exact this

theorem keepQ_distinctPropagate {cc : CC} {n : Nat} {l : Int} {es : List (List (Int × Nat) × Int)} : Keep (SameQ K) (distinctPropagate cc n l es) := by
  unfold distinctPropagate
  refine ⟨fun W a W' hx h => ?_⟩
  obtain ⟨c, W1, h1, h2⟩ := SM.bind_ok hx
  obtain ⟨⟨hcs, hal⟩, rfl⟩ := getCS_iff.mp h1
  obtain ⟨c', W2, h3, h4⟩ := SM.bind_ok h2
  obtain ⟨_, W3, h5, h6⟩ := SM.bind_ok h4
  injection h5 with h5
  obtain ⟨-, rfl⟩ := Prod.mk.inj h5
  have hf : W2.book = W1.book := congrArg Prod.snd (fr_distinctUpdate.fr _ _ _ h3)
  refine Keep.keep (P := SameQ K) ?_ _ _ _ h6 ?_
  · have hfin : Keep (SameQ K) (getCS n >>= fun c => setCS n c.clearTodo >>= fun _ => (Pure.pure true : SM Bool)) :=
      keepQ_setCS (f := fun c => c.clearTodo) (fun _ => rfl) (fun _ => Keep.fr Fr.pure)
    refine Keep.bind (Keep.fr fr_distinctTodo) (fun b => ?_)
    split
    · exact Keep.fr Fr.pure
    · refine Keep.bind (Keep.fr fr_distinctTodo) (fun b => ?_)
      split
      · exact Keep.fr Fr.pure
      · exact hfin
  · rw [← h]
    show qview { W2.book with cs := W2.book.cs.set n c' } = qview W1.book
    rw [hf]
    exact qview_set hcs (distinctUpdate_flag h3)
macro_rules | `(tactic| keep_step) => `(tactic| with_reducible exact keepQ_distinctPropagate)

theorem keepQ_disjointPropagate {cc : CC} {n : Nat} {l : Int} : Keep (SameQ K) (disjointPropagate cc n l) := by
  unfold disjointPropagate
  refine Keep.bind (Keep.fr Fr.getCS) (fun c => ?_)
  refine Keep.bind (Keep.fr fr_disjointLoad) (fun is => ?_)
  refine Keep.bind (Keep.fr fr_disjointRun) (fun p => ?_)
  refine keepQ_setCS (f := fun c => { c with intervals := p.2, forceUpdate := false }) (fun _ => rfl) (fun c' => ?_)
  split
  · exact Keep.fr Fr.pure
  · refine Keep.bind (Keep.fr fr_disjointRun) (fun q => ?_)
    exact keepQ_setCS (f := fun c => { c with intervals := q.2 }) (fun _ => rfl) (fun _ => Keep.fr Fr.pure)
macro_rules | `(tactic| keep_step) => `(tactic| with_reducible exact keepQ_disjointPropagate)

theorem keepQ_propagateCS {cc : CC} {ck : Bool} {n : Nat} : Keep (SameQ K) (propagateCS cc ck n) := by
  unfold propagateCS; keep_auto

/-- The change of the book made by a computation keeps the constraints. -/
theorem Keep.sameQ {x : SM α} (h : ∀ W a W', x W = .ok (a, W') → qview W'.book = qview W.book) : Keep (SameQ K) x :=
  ⟨fun W a W' hx hp => (h W a W' hx).trans hp⟩

theorem keepQ_updateLower {l v : Nat} {x : Int} : Keep (SameQ K) (updateLower l v x) :=
  Keep.sameQ (fun W u W' h => by obtain ⟨y, -, e⟩ := updateLower_frame h; have e := congrArg Prod.snd e; simp only [frame] at e; rw [e]; rfl)
theorem keepQ_updateUpper {l v : Nat} {x : Int} : Keep (SameQ K) (updateUpper l v x) :=
  Keep.sameQ (fun W u W' h => by obtain ⟨y, -, e⟩ := updateUpper_frame h; have e := congrArg Prod.snd e; simp only [frame] at e; rw [e]; rfl)
macro_rules | `(tactic| keep_step) => `(tactic| with_reducible exact keepQ_updateLower)
macro_rules | `(tactic| keep_step) => `(tactic| with_reducible exact keepQ_updateUpper)
theorem keepQ_updateUpperLit {cc : CC} {l v : Nat} {lit value sl : Int} : Keep (SameQ K) (updateUpperLit cc l v lit value sl) := by
  unfold updateUpperLit; keep_auto
theorem keepQ_updateLowerLit {cc : CC} {l v : Nat} {lit value sl : Int} : Keep (SameQ K) (updateLowerLit cc l v lit value sl) := by
  unfold updateLowerLit; keep_auto
macro_rules | `(tactic| keep_step) => `(tactic| with_reducible exact keepQ_updateUpperLit)
macro_rules | `(tactic| keep_step) => `(tactic| with_reducible exact keepQ_updateLowerLit)
theorem keepQ_propagateFacts {cc : CC} {l : Nat} : ∀ {fs : List (Int × Nat × Int × Int)}, Keep (SameQ K) (propagateFacts cc l fs)
  | [] => by unfold propagateFacts; keep_auto
  | (a, b, c, d) :: fs => by
    have ih := keepQ_propagateFacts (cc := cc) (l := l) (fs := fs)
    unfold propagateFacts; keep_auto
macro_rules | `(tactic| keep_step) => `(tactic| with_reducible exact keepQ_propagateFacts)
theorem keepQ_updateDomain {cc : CC} {lit : Int} : Keep (SameQ K) (updateDomain cc lit) := by unfold updateDomain; keep_auto
macro_rules | `(tactic| keep_step) => `(tactic| with_reducible exact keepQ_updateDomain)
theorem keepQ_integrateFacts {cc : CC} : Keep (SameQ K) (integrateFacts cc) := by unfold integrateFacts; keep_auto
macro_rules | `(tactic| keep_step) => `(tactic| with_reducible exact keepQ_integrateFacts)


/-! ### Consistency of queue, watches and marks -/

/-- The constraint exists. -/
def QView.ok (q : QView) (n : Nat) : Prop := ∃ t, q.flags[n]? = some (true, t)

/-- Watches and queue refer to existing constraints, and marked constraints are queued. If `m` is true, then
in addition exactly the queued constraints are marked, and no constraint is queued twice. -/
structure QI (m : Bool) (q : QView) : Prop where
  wt : ∀ v, ∀ w ∈ q.watches.getD v [], q.ok w.2
  rm : ∀ r ∈ q.removed, q.ok r.2.2
  td : ∀ n ∈ q.todo, q.ok n
  mq : ∀ n a, q.flags[n]? = some (a, true) → n ∈ q.todo
  cl : m = true → q.todo.Nodup ∧ ∀ n ∈ q.todo, ∃ a, q.flags[n]? = some (a, true)

theorem QI.weaken {m : Bool} {q : QView} (h : QI m q) : QI false q := ⟨h.wt, h.rm, h.td, h.mq, fun e => by cases e⟩

/-- The queue is empty and nothing is marked. -/
theorem QI.clean {m m' : Bool} {q : QView} (h : QI m q) (ht : q.todo = []) : QI m' q :=
  ⟨h.wt, h.rm, h.td, h.mq, fun _ => by rw [ht]; simp⟩

theorem flags_get {b : Book} {n : Nat} : (qview b).flags[n]? = b.cs[n]?.map flag := by
  show (b.cs.map flag)[n]? = _
  rw [List.getElem?_map]

theorem qok_iff {b : Book} {n : Nat} : (qview b).ok n ↔ ∃ c, b.cs[n]? = some c ∧ c.alive = true := by
  unfold QView.ok
  rw [flags_get]
  constructor
  · rintro ⟨t, h⟩
    cases hc : b.cs[n]? with
    | none => rw [hc] at h; cases h
    | some c =>
      rw [hc] at h
      simp [flag] at h
      exact ⟨c, rfl, h.1⟩
  · rintro ⟨c, h1, h2⟩
    exact ⟨c.todo, by rw [h1]; simp [flag, h2]⟩

theorem markTodo_qview {b : Book} {n : Nat} : qview (b.markTodo n) = qview b ∨
    ∃ c, b.cs[n]? = some c ∧ c.todo = false ∧
      qview (b.markTodo n) = ⟨b.watches, b.removed, b.todo ++ [n], (b.cs.map flag).set n (c.alive, true)⟩ := by
  unfold Book.markTodo
  cases hc : b.cs[n]? with
  | none => exact Or.inl rfl
  | some c =>
    dsimp only
    split
    · exact Or.inl rfl
    · split
      · exact Or.inl rfl
      · next h =>
        refine Or.inr ⟨c, rfl, by simpa using h, ?_⟩
        simp [qview, List.map_set, flag]

theorem ok_markTodo {b : Book} {n k : Nat} : (qview (b.markTodo n)).ok k ↔ (qview b).ok k := by
  rcases markTodo_qview (b := b) (n := n) with h | ⟨c, hc, ht, h⟩
  · rw [h]
  · rw [h]
    unfold QView.ok
    rw [flags_get]
    by_cases hk : n = k
    · subst hk
      have hl : n < (b.cs.map flag).length := by simpa using (List.getElem?_eq_some_iff.mp hc).1
      simp only [List.getElem?_set_self hl, hc]
      simp [flag]
    · simp only [List.getElem?_set_ne hk]
      simp

theorem QI.mark {m : Bool} {b : Book} {n : Nat} (h : QI m (qview b)) (hn : (qview b).ok n) : QI m (qview (b.markTodo n)) := by
  have ho := fun k => ok_markTodo (b := b) (n := n) (k := k)
  rcases markTodo_qview (b := b) (n := n) with e | ⟨c, hc, ht, e⟩
  · rw [e]; exact h
  · rw [e] at ho ⊢
    have hl : n < (b.cs.map flag).length := by simpa using (List.getElem?_eq_some_iff.mp hc).1
    refine ⟨fun v w hw => (ho _).mpr (h.wt v w hw), fun r hr => (ho _).mpr (h.rm r hr), fun k hk => ?_, fun k a hk => ?_, fun hm => ?_⟩
    · rcases List.mem_append.mp hk with hk | hk
      · exact (ho _).mpr (h.td k hk)
      · rw [List.mem_singleton] at hk; subst hk; exact (ho _).mpr hn
    · by_cases hkn : n = k
      · subst hkn; simp
      · simp only [List.getElem?_set_ne hkn] at hk
        exact List.mem_append_left _ (h.mq k a hk)
    · obtain ⟨h1, h2⟩ := h.cl hm
      have hnt : n ∉ b.todo := by
        intro hx
        obtain ⟨a, ha⟩ := h2 n hx
        rw [flags_get, hc] at ha
        simp [flag, ht] at ha
      refine ⟨?_, fun k hk => ?_⟩
      · refine List.nodup_append.mpr ⟨h1, by simp, ?_⟩
        intro a ha b' hb' hab
        rw [List.mem_singleton] at hb'
        rw [hab, hb'] at ha
        exact hnt ha
      · by_cases hkn : n = k
        · subst hkn
          exact ⟨c.alive, by simp [List.getElem?_set_self hl]⟩
        · rcases List.mem_append.mp hk with hk | hk
          · obtain ⟨a, ha⟩ := h2 k hk
            exact ⟨a, by simp only [List.getElem?_set_ne hkn]; exact ha⟩
          · rw [List.mem_singleton] at hk; exact absurd hk.symm hkn

theorem update_flag {c : CState} {i d : Int} {r : Bool × CState} (h : c.update i d = .ok r) : flag r.2 = flag c := by
  unfold CState.update at h
  have hs : ∀ {r : Bool × CState}, c.updateSum i d = .ok r → flag r.2 = flag c := by
    intro r h
    unfold CState.updateSum at h
    split at h
    · cases h
    · split at h <;> (injection h with h; subst h; rfl)
  split at h
  · exact hs h
  · exact hs h
  · injection h with h; subst h
    unfold CState.markTodoElem CState.markDirty flag
    split_ifs <;> rfl
  · injection h with h; subst h; rfl
  · injection h with h; subst h; rfl

theorem ok_congr {b b' : Book} (h : b'.cs.map flag = b.cs.map flag) {k : Nat} : (qview b').ok k ↔ (qview b).ok k := by
  unfold QView.ok qview
  rw [h]

theorem updateWatches_queue {m : Bool} {level var : Nat} {d : Int} : ∀ {ws : List (Int × Nat)} {b : Book} {p : List (Int × Nat) × Book},
    Book.updateWatches level var d ws b = .ok p → QI m (qview b) → (∀ w ∈ ws, (qview b).ok w.2) →
    QI m (qview p.2) ∧ (∀ w ∈ p.1, w ∈ ws) ∧ (∀ k, (qview p.2).ok k ↔ (qview b).ok k) ∧ p.2.watches = b.watches
  | [], b, p, h, hq, _ => by
    injection h with h; subst h
    exact ⟨hq, by simp, fun _ => Iff.rfl, rfl⟩
  | (i, n) :: ws, b, p, h, hq, hw => by
    unfold Book.updateWatches at h
    cases hc : b.cs[n]? with
    | none => rw [hc] at h; cases h
    | some c =>
      rw [hc] at h
      dsimp only at h
      have hn : (qview b).ok n := hw (i, n) (by simp)
      split at h
      · have hq' : QI m (qview { b with removed := b.removed ++ [(var, i, n)] }) := by
          refine ⟨hq.wt, fun r hr => ?_, hq.td, hq.mq, hq.cl⟩
          rcases List.mem_append.mp hr with hr | hr
          · exact hq.rm r hr
          · rw [List.mem_singleton] at hr; subst hr; exact hn
        obtain ⟨h1, h2, h3, h4⟩ := updateWatches_queue h hq' (fun w hw' => hw w (by simp [hw']))
        exact ⟨h1, fun w hw' => by simp [h2 w hw'], h3, h4⟩
      · cases hu : c.update i d with
        | error e => rw [hu] at h; cases h
        | ok r =>
          rw [hu] at h
          have hf := update_flag hu
          have e0 : qview { b with cs := b.cs.set n r.2 } = qview b := by
            unfold qview; rw [map_flag_set hc hf]
          simp only [bind, Except.bind] at h
          have key : ∀ b1 : Book, QI m (qview b1) → (∀ k, (qview b1).ok k ↔ (qview b).ok k) → b1.watches = b.watches →
              ∀ {q : List (Int × Nat) × Book}, Book.updateWatches level var d ws b1 = .ok q →
              QI m (qview q.2) ∧ (∀ w ∈ (i, n) :: q.1, w ∈ (i, n) :: ws) ∧ (∀ k, (qview q.2).ok k ↔ (qview b).ok k) ∧ q.2.watches = b.watches := by
            intro b1 g1 g2 g3 q hq'
            obtain ⟨h1, h2, h3, h4⟩ := updateWatches_queue hq' g1 (fun w hw' => (g2 _).mpr (hw w (by simp [hw'])))
            refine ⟨h1, fun w hw' => ?_, fun k => (h3 k).trans (g2 k), h4.trans g3⟩
            rcases List.mem_cons.mp hw' with hw' | hw'
            · simp [hw']
            · simp [h2 w hw']
          split at h
          · cases h
          · next q hx =>
            simp only [pure, Except.pure, Except.ok.injEq] at h
            subst h
            split at hx
            · have hm := QI.mark (m := m) (b := { b with cs := b.cs.set n r.2 }) (n := n) (by rw [e0]; exact hq) (by rw [e0]; exact hn)
              refine key _ hm (fun k => ?_) ?_ hx
              · rw [ok_markTodo, e0]
              · unfold Book.markTodo
                split
                · rfl
                · split_ifs <;> rfl
            · exact key { b with cs := b.cs.set n r.2 } (by rw [e0]; exact hq) (fun k => by rw [e0]) rfl hx

theorem mem_getD_set {ws : List (List (Int × Nat))} {v u : Nat} {l : List (Int × Nat)} {w : Int × Nat} (h : w ∈ (ws.set v l).getD u []) : w ∈ l ∨ w ∈ ws.getD u [] := by
  simp only [List.getD_eq_getElem?_getD, List.getElem?_set] at h ⊢
  split_ifs at h with h1 h2
  · exact Or.inl (by simpa using h)
  · simp at h
  · exact Or.inr h

theorem updateConstraints_queue {m : Bool} {level var : Nat} {d : Int} {b b' : Book} (h : Book.updateConstraints level var d b = .ok b') (hq : QI m (qview b)) :
    QI m (qview b') := by
  unfold Book.updateConstraints at h
  cases hw : b.watches[var]? with
  | none => rw [hw] at h; cases h
  | some ws =>
    rw [hw] at h
    dsimp only at h
    have hwd : b.watches.getD var [] = ws := by rw [List.getD_eq_getElem?_getD, hw]; rfl
    cases hu : Book.updateWatches level var d ws b with
    | error e => rw [hu] at h; cases h
    | ok p =>
      rw [hu] at h
      simp only [bind, Except.bind, pure, Except.pure, Except.ok.injEq] at h
      subst h
      have hws : ∀ w ∈ ws, (qview b).ok w.2 := fun w hw' => hq.wt var w (by show w ∈ b.watches.getD var []; rw [hwd]; exact hw')
      obtain ⟨h1, h2, h3, h4⟩ := updateWatches_queue hu hq hws
      refine ⟨fun v w hw' => ?_, h1.rm, h1.td, h1.mq, h1.cl⟩
      rcases mem_getD_set hw' with g | g
      · exact (h3 _).mpr (hws w (h2 w g))
      · exact h1.wt v w g

theorem updateUppers_queue {m : Bool} {level : Nat} : ∀ {vs : List Nat} {b b' : Book}, Book.updateUppers level vs b = .ok b' → QI m (qview b) → QI m (qview b')
  | [], b, b', h, hq => by injection h with h; subst h; exact hq
  | v :: vs, b, b', h, hq => by
    unfold Book.updateUppers at h
    cases hb : Book.updateConstraints level v (b.udiff.getD v 0) b with
    | error e => rw [hb] at h; cases h
    | ok b1 =>
      rw [hb] at h
      exact updateUppers_queue (b := { b1 with udiff := b1.udiff.set v 0 }) h (show QI m (qview b1) from updateConstraints_queue hb hq)

theorem updateLowers_queue {m : Bool} {level : Nat} : ∀ {vs : List Nat} {b b' : Book}, Book.updateLowers level vs b = .ok b' → QI m (qview b) → QI m (qview b')
  | [], b, b', h, hq => by injection h with h; subst h; exact hq
  | v :: vs, b, b', h, hq => by
    unfold Book.updateLowers at h
    cases hb : Book.updateConstraints level v (b.ldiff.getD v 0) b with
    | error e => rw [hb] at h; cases h
    | ok b1 =>
      rw [hb] at h
      exact updateLowers_queue (b := { b1 with ldiff := b1.ldiff.set v 0 }) h (show QI m (qview b1) from updateConstraints_queue hb hq)

/-- The consistency conditions on states. -/
def QF (m : Bool) (F : List VarState × Book) : Prop := QI m (qview F.2)

variable {m : Bool}

theorem Keep.q {x : SM α} (h : ∀ K, Keep (SameQ K) x) : Keep (QF m) x :=
  ⟨fun W a W' hx hp => by
    have : qview W'.book = qview W.book := (h (qview W.book)).keep _ _ _ hx rfl
    show QI m (qview W'.book)
    rw [this]; exact hp⟩

theorem q_deliver {level : Nat} : Keep (QF m) (deliver level) := by
  refine ⟨fun W u W' h hq => ?_⟩
  unfold deliver at h
  obtain ⟨W1, W2, h1, h2⟩ := SM.bind_ok h
  obtain ⟨rfl, rfl⟩ := get_iff.mp h1
  obtain ⟨b1, W3, h3, h4⟩ := SM.bind_ok h2
  obtain ⟨h3, rfl⟩ := liftRes_iff.mp h3
  obtain ⟨b2, W4, h5, h6⟩ := SM.bind_ok h4
  obtain ⟨g5, rfl⟩ := liftRes_iff.mp h5
  rw [modify_iff] at h6
  subst h6
  exact updateLowers_queue g5 (updateUppers_queue h3 hq)

/-- The marks of the given constraints are cleared; everything else is unchanged. -/
structure Unmarked (ns : List Nat) (q q' : QView) : Prop where
  watches : q'.watches = q.watches
  removed : q'.removed = q.removed
  todo : q'.todo = q.todo
  flags : ∀ j : Nat, q'.flags[j]? = q.flags[j]?.map (fun f => (f.1, f.2 && !decide (j ∈ ns)))

theorem Unmarked.trans {ns ms : List Nat} {q q' q'' : QView} (h : Unmarked ns q q') (h' : Unmarked ms q' q'') : Unmarked (ns ++ ms) q q'' := by
  refine ⟨h'.watches.trans h.watches, h'.removed.trans h.removed, h'.todo.trans h.todo, fun j => ?_⟩
  rw [h'.flags, h.flags]
  cases q.flags[j]? with
  | none => rfl
  | some f => simp [Bool.and_assoc]

theorem unmarkTodo_flags : ∀ {ns : List Nat} {cs : List CState} (j : Nat), (Book.unmarkTodo cs ns)[j]?.map flag = cs[j]?.map (fun c => (c.alive, c.todo && !decide (j ∈ ns)))
  | [], cs, j => by
    simp [Book.unmarkTodo, flag]
    rfl
  | n :: ns, cs, j => by
    have ih := unmarkTodo_flags (ns := ns) (cs := cs.modify n (fun c => { c with todo := false })) j
    show (Book.unmarkTodo (cs.modify n (fun c => { c with todo := false })) ns)[j]?.map flag = _
    rw [ih, List.getElem?_modify]
    cases cs[j]? with
    | none => rfl
    | some c =>
      by_cases h : n = j
      · subst h; simp
      · have h' : ¬ j = n := fun e => h e.symm
        simp [h, h']

theorem unmarked_unmarkTodo {b : Book} {ns : List Nat} : Unmarked ns (qview b) (qview { b with cs := Book.unmarkTodo b.cs ns }) := by
  refine ⟨rfl, rfl, rfl, fun j => ?_⟩
  rw [flags_get, flags_get]
  show (Book.unmarkTodo b.cs ns)[j]?.map flag = _
  rw [unmarkTodo_flags]
  cases b.cs[j]? <;> rfl

theorem unmarked_checkOne {ck : Bool} {n : Nat} {a : Bool} (h : checkOne cc ck n W = .ok (a, W')) : Unmarked [n] (qview W.book) (qview W'.book) := by
  unfold checkOne at h
  obtain ⟨c, W1, h1, h2⟩ := SM.bind_ok h
  obtain ⟨⟨hc, hal⟩, rfl⟩ := getCS_iff.mp h1
  obtain ⟨_, W2, h3, h4⟩ := SM.bind_ok h2
  injection h3 with h3
  obtain ⟨-, rfl⟩ := Prod.mk.inj h3
  have hk : ∀ K, Keep (SameQ K) (qFalse cc c.con.lit >>= fun f => if (!f) = true then propagateCS cc ck n else (markInactiveS n >>= fun _ => Pure.pure true)) := by
    intro K
    refine Keep.bind (Keep.fr Fr.qFalse) (fun b => ?_)
    split
    · exact keepQ_propagateCS
    · keep_auto
  have e : qview W'.book = qview { W1.book with cs := W1.book.cs.set n { c with todo := false } } := (hk _).keep _ _ _ h4 rfl
  rw [e]
  refine ⟨rfl, rfl, rfl, fun j => ?_⟩
  rw [flags_get, flags_get]
  simp only
  by_cases hj : n = j
  · subst hj
    rw [List.getElem?_set_self (List.getElem?_eq_some_iff.mp hc).1, hc]
    simp [flag]
  · rw [List.getElem?_set_ne hj]
    have hj' : ¬ j = n := fun e => hj e.symm
    cases W1.book.cs[j]? with
    | none => rfl
    | some c => simp [hj', flag]

theorem unmarked_checkTodo {ck : Bool} : ∀ {ns : List Nat} {W W' : World} {a : Bool}, checkTodo cc ck ns W = .ok (a, W') → Unmarked ns (qview W.book) (qview W'.book)
  | [], W, W', a, h => by
    unfold checkTodo at h
    obtain ⟨-, rfl⟩ := pure_iff.mp h
    refine ⟨rfl, rfl, rfl, fun j => ?_⟩
    cases (qview W'.book).flags[j]? <;> simp
  | n :: ns, W, W', a, h => by
    unfold checkTodo at h
    obtain ⟨b, W1, h1, h2⟩ := SM.bind_ok h
    have e1 := unmarked_checkOne h1
    cases b with
    | false =>
      simp only [Bool.not_false, if_true] at h2
      obtain ⟨_, W2, h3, h4⟩ := SM.bind_ok h2
      rw [modify_iff] at h3
      obtain ⟨-, rfl⟩ := pure_iff.mp h4
      subst h3
      exact e1.trans unmarked_unmarkTodo
    | true =>
      simp only [Bool.not_true] at h2
      exact e1.trans (unmarked_checkTodo h2)

/-- Clearing the queue and its marks. -/
theorem QI.cleared {q q' : QView} {m' : Bool} (h : QI m q) (hu : Unmarked q.todo q q') : QI m' { q' with todo := [] } := by
  have ho : ∀ k, QView.ok { q' with todo := [] } k ↔ q.ok k := by
    intro k
    unfold QView.ok
    simp only
    rw [hu.flags]
    cases q.flags[k]? with
    | none => simp
    | some f => obtain ⟨a, t⟩ := f; simp
  refine ⟨fun v w hw => (ho _).mpr (h.wt v w ?_), fun r hr => (ho _).mpr (h.rm r ?_), by simp, fun n a hn => ?_, fun _ => by simp⟩
  · rw [← hu.watches]; exact hw
  · rw [← hu.removed]; exact hr
  · exfalso
    simp only [hu.flags] at hn
    cases hf : q.flags[n]? with
    | none => rw [hf] at hn; cases hn
    | some f =>
      obtain ⟨a', t⟩ := f
      rw [hf] at hn
      simp at hn
      exact hn.2.2 (h.mq n a' (by rw [hf, hn.2.1]))

/-- After a run of the loop the queue is empty. -/
theorem q_checkLoop {ck : Bool} {level : Nat} : ∀ {n : Nat}, Keep (QF m) (checkLoop cc ck level n)
  | 0 => ⟨fun W a W' h => by cases h⟩
  | n + 1 => by
    have ih := q_checkLoop (ck := ck) (level := level) (n := n)
    unfold checkLoop
    refine Keep.bind (Keep.q fun K => keepQ_integrateFacts) (fun b => ?_)
    split
    · exact Keep.fr Fr.pure
    · refine Keep.bind q_deliver (fun _ => ?_)
      refine ⟨fun W a W' h hq => ?_⟩
      obtain ⟨W1, W2, h1, h2⟩ := SM.bind_ok h
      obtain ⟨rfl, rfl⟩ := get_iff.mp h1
      obtain ⟨r, W3, h3, h4⟩ := SM.bind_ok h2
      have hu := unmarked_checkTodo h3
      obtain ⟨_, W4, h5, h6⟩ := SM.bind_ok h4
      rw [modify_iff] at h5
      subst h5
      have hc : QF m (frame { W3 with book.todo := [] }) := QI.cleared (m := m) hq hu
      obtain ⟨W5, W6, h7, h8⟩ := SM.bind_ok h6
      obtain ⟨rfl, rfl⟩ := get_iff.mp h7
      dsimp only at h8
      split at h8
      · obtain ⟨-, rfl⟩ := pure_iff.mp h8
        exact hc
      · exact ih.keep _ _ _ h8 hc

theorem q_solverCheck {ck : Bool} {n : Nat} : Keep (QF m) (solverCheck cc ck n) := by
  unfold solverCheck
  refine Keep.bind (Keep.fr Fr.curLevel) (fun l => Keep.bind (Keep.fr Fr.get) (fun W => ?_))
  split
  · exact Keep.fr Fr.pure
  · exact q_checkLoop

theorem keepQ_pushLevel {n : Nat} : Keep (SameQ K) (pushLevel n) := by
  unfold pushLevel
  refine Keep.bind (Keep.fr Fr.curLevel) (fun l => Keep.whenS ?_)
  exact Keep.sameQ (fun W u W' h => by rw [modify_iff] at h; subst h; rfl)

theorem mark_foldl : ∀ {ns : List Nat} {b : Book}, QI m (qview b) → (∀ n ∈ ns, (qview b).ok n) → QI m (qview (ns.foldl Book.markTodo b))
  | [], _, h, _ => h
  | n :: ns, b, h, hn => by
    rw [List.foldl_cons]
    exact mark_foldl (h.mark (hn n (by simp))) (fun k hk => ok_markTodo.mpr (hn k (by simp [hk])))

theorem consOf_ok {b : Book} {l : Int} {n : Nat} (h : n ∈ b.consOf l) : (qview b).ok n := by
  unfold Book.consOf at h
  rw [qok_iff]
  obtain ⟨-, h⟩ := List.mem_filter.mp h
  cases hc : b.cs[n]? with
  | none => rw [hc] at h; cases h
  | some c =>
    rw [hc] at h
    simp at h
    exact ⟨c, rfl, h.1⟩

theorem q_propagateLits : ∀ {ls : List Int}, Keep (QF m) (propagateLits cc ls)
  | [] => Keep.fr Fr.pure
  | l :: ls => by
    unfold propagateLits propagateLit
    refine Keep.bind (Keep.bind ⟨fun W u W' h hq => ?_⟩ (fun _ => Keep.q fun K => keepQ_updateDomain)) (fun b => ?_)
    · rw [modify_iff] at h
      subst h
      exact mark_foldl hq (fun n hn => consOf_ok hn)
    · split
      · exact Keep.fr Fr.pure
      · exact q_propagateLits

theorem q_solverPropagate {ls : List Int} : Keep (QF m) (solverPropagate cc ls) := by
  unfold solverPropagate
  exact Keep.bind (Keep.q fun K => keepQ_pushLevel) (fun _ => q_propagateLits)

theorem q_factLoop {ck : Bool} {t : List SEv → List Int} {fuel : Nat} : ∀ {n : Nat}, Keep (QF m) (factLoop cc t ck fuel n)
  | 0 => Keep.fr Fr.ub
  | n + 1 => by
    have ih := q_factLoop (ck := ck) (t := t) (fuel := fuel) (n := n)
    unfold factLoop
    refine Keep.bind (Keep.fr (by fr_auto)) (fun b => ?_)
    split
    · exact Keep.fr Fr.pure
    refine Keep.bind (Keep.fr (by fr_auto)) (fun W => ?_)
    dsimp only
    split
    · exact Keep.fr Fr.pure
    refine Keep.bind q_solverPropagate (fun b => ?_)
    split
    · exact Keep.fr Fr.pure
    refine Keep.bind ⟨fun W u W' h hq => by rw [modify_iff] at h; subst h; exact hq⟩ (fun _ => ?_)
    refine Keep.bind q_solverCheck (fun b => ?_)
    split
    · exact Keep.fr Fr.pure
    · exact ih

theorem undo_flag {c : CState} {i d : Int} : flag (c.undo i d) = flag c := by
  unfold CState.undo
  split
  · unfold CState.undoSum; split_ifs <;> rfl
  · unfold CState.undoSum; split_ifs <;> rfl
  · unfold CState.clearTodo CState.markDirty; split_ifs <;> rfl
  · rfl
  · rfl

theorem undoWatches_flag {d : Int} : ∀ {ws : List (Int × Nat)} {cs : List CState}, (Book.undoWatches d ws cs).map flag = cs.map flag
  | [], _ => rfl
  | (i, n) :: ws, cs => by
    show (Book.undoWatches d ws (cs.modify n (fun c => c.undo i d))).map flag = _
    rw [undoWatches_flag]
    refine map_flag_eq (by simp) (fun j c hc => ?_)
    rw [List.getElem?_modify, hc]
    refine ⟨_, rfl, ?_⟩
    split_ifs
    · exact undo_flag
    · rfl

theorem keepQ_undoLowers : ∀ {vs : List Nat}, Keep (SameQ K) (undoLowers vs)
  | [] => Keep.fr Fr.pure
  | v :: vs => by
    unfold undoLowers undoLowerVar
    refine Keep.bind ⟨fun W u W' h hk => ?_⟩ (fun _ => keepQ_undoLowers)
    simp only [smok] at h
    obtain ⟨y, W1, ⟨hv, rfl⟩, y', W2, ⟨hp, rfl⟩, _, W3, rfl, rfl⟩ := h
    rw [← (show qview W2.book = K from hk)]
    show qview _ = qview _
    unfold qview
    simp only [frame]
    congr 1
    split_ifs
    · exact undoWatches_flag
    · rfl

theorem keepQ_undoUppers : ∀ {vs : List Nat}, Keep (SameQ K) (undoUppers vs)
  | [] => Keep.fr Fr.pure
  | v :: vs => by
    unfold undoUppers undoUpperVar
    refine Keep.bind ⟨fun W u W' h hk => ?_⟩ (fun _ => keepQ_undoUppers)
    simp only [smok] at h
    obtain ⟨y, W1, ⟨hv, rfl⟩, y', W2, ⟨hp, rfl⟩, _, W3, rfl, rfl⟩ := h
    rw [← (show qview W2.book = K from hk)]
    show qview _ = qview _
    unfold qview
    simp only [frame]
    congr 1
    split_ifs
    · exact undoWatches_flag
    · rfl

theorem keepQ_modify {f : World → World} (h : ∀ W, qview (f W).book = qview W.book) : Keep (SameQ K) (modify f) :=
  ⟨fun W u W' hx hk => by rw [modify_iff] at hx; subst hx; exact (h W).trans hk⟩

theorem activate_flag : ∀ {ns : List Nat} {cs : List CState}, (Book.activate cs ns).map flag = cs.map flag
  | [], _ => rfl
  | n :: ns, cs => by
    show (Book.activate (cs.modify n (fun c => { c with inactive := 0 })) ns).map flag = _
    rw [activate_flag]
    refine map_flag_eq (by simp) (fun j c hc => ?_)
    rw [List.getElem?_modify, hc]
    refine ⟨_, rfl, ?_⟩
    split_ifs <;> rfl

theorem rewatch_mem : ∀ {rs : List (Nat × Int × Nat)} {ws : List (List (Int × Nat))} {v : Nat} {w : Int × Nat}, w ∈ (Book.rewatch ws rs).getD v [] →
    w ∈ ws.getD v [] ∨ ∃ r ∈ rs, r.2 = w
  | [], ws, v, w, h => Or.inl h
  | r :: rs, ws, v, w, h => by
    have h : w ∈ (Book.rewatch (ws.modify r.1 (fun l => l ++ [r.2])) rs).getD v [] := h
    rcases rewatch_mem h with h | ⟨r', h1, h2⟩
    · simp only [List.getD_eq_getElem?_getD, List.getElem?_modify] at h
      cases hw : ws[v]? with
      | none => rw [hw] at h; simp at h
      | some l =>
        rw [hw] at h
        simp at h
        split_ifs at h
        · rcases List.mem_append.mp h with h | h
          · left; rw [List.getD_eq_getElem?_getD, hw]; exact h
          · rw [List.mem_singleton] at h
            exact Or.inr ⟨r, by simp, h.symm⟩
        · left; rw [List.getD_eq_getElem?_getD, hw]; exact h
    · exact Or.inr ⟨r', by simp [h1], h2⟩

theorem q_undoRest {b : Book} {l : Lvl} (h : QI m (qview b)) : QI m (qview (b.undoRest l)) := by
  have hu : Unmarked b.todo (qview { b with cs := Book.activate b.cs (b.inactive.drop l.inactiveOff) })
      (qview { b with cs := Book.unmarkTodo (Book.activate b.cs (b.inactive.drop l.inactiveOff)) b.todo }) :=
    unmarked_unmarkTodo (b := { b with cs := Book.activate b.cs (b.inactive.drop l.inactiveOff) })
  have e : qview { b with cs := Book.activate b.cs (b.inactive.drop l.inactiveOff) } = qview b := by
    unfold qview; rw [activate_flag]
  rw [e] at hu
  have hc := QI.cleared (m' := m) h hu
  refine ⟨fun v w hw => ?_, fun r hr => hc.rm r (List.mem_of_mem_take hr), by simp [qview, Book.undoRest], hc.mq, fun _ => by simp [qview, Book.undoRest]⟩
  rcases rewatch_mem hw with hw | ⟨r, hr, rfl⟩
  · exact hc.wt v w hw
  · exact hc.rm r (List.mem_of_mem_drop hr)

theorem q_solverUndo : Keep (QF m) solverUndo := by
  unfold solverUndo levelUndo
  refine Keep.bind (Keep.fr (by fr_auto)) (fun l => ?_)
  refine Keep.bind (Keep.fr (by fr_auto)) (fun _ => ?_)
  refine Keep.bind ?_ (fun _ => ?_)
  · refine Keep.bind (Keep.fr (by fr_auto)) (fun W => ?_)
    refine Keep.bind (Keep.q fun K => keepQ_undoLowers) (fun _ => ?_)
    refine Keep.bind (Keep.q fun K => keepQ_modify (fun _ => rfl)) (fun _ => ?_)
    refine Keep.bind (Keep.fr (by fr_auto)) (fun W => ?_)
    refine Keep.bind (Keep.q fun K => keepQ_undoUppers) (fun _ => ?_)
    refine Keep.bind (Keep.q fun K => keepQ_modify (fun _ => rfl)) (fun _ => ⟨fun W u W' h hq => ?_⟩)
    rw [modify_iff] at h
    subst h
    exact q_undoRest hq
  · exact Keep.bind (Keep.q fun K => keepQ_modify (fun _ => rfl)) (fun _ => Keep.fr (by fr_auto))

theorem keepQ_splitFirst : ∀ {vs : List Nat}, Keep (SameQ K) (splitFirst cc vs)
  | [] => Keep.fr Fr.pure
  | v :: vs => by
    unfold splitFirst
    refine Keep.bind (Keep.fr fr_splitVar) (fun b => ?_)
    split
    · exact Keep.bind (keepQ_modify (fun _ => rfl)) (fun _ => Keep.fr Fr.pure)
    · exact keepQ_splitFirst

theorem keepQ_solverCheckFull {b : Bool} : Keep (SameQ K) (solverCheckFull cc b) := by
  unfold solverCheckFull
  refine Keep.bind (Keep.fr (by fr_auto)) (fun W => ?_)
  dsimp only
  refine Keep.bind ?_ (fun s => ?_)
  · split
    · exact Keep.fr fr_splitEach
    · exact keepQ_splitFirst
  · exact Keep.fr (by fr_auto)

/-! ### Adding and removing constraints -/

theorem q_addVar {lo hi : Int} {v : Nat} (h : addVar lo hi W = .ok (v, W')) (hq : QF m (frame W)) : QF m (frame W') := by
  injection h with h
  obtain ⟨-, rfl⟩ := Prod.mk.inj h
  refine ⟨fun u w hw => hq.wt u w ?_, hq.rm, hq.td, hq.mq, hq.cl⟩
  simp only [qview, frame, List.getD_eq_getElem?_getD] at hw ⊢
  rw [List.getElem?_append] at hw
  split_ifs at hw with h1
  · exact hw
  · cases hk : ([[]] : List (List (Int × Nat)))[u - W.book.watches.length]? with
    | none => rw [hk] at hw; simp at hw
    | some l =>
      rw [hk] at hw
      have : l = [] := by
        have := List.mem_of_getElem? hk
        simpa using this
      subst this; simp at hw

theorem q_addConstraint {c : Constr} {n : Nat} (h : addConstraint c W = .ok (n, W')) (hq : QF m (frame W)) : QF m (frame W') := by
  unfold addConstraint at h
  obtain ⟨st, W1, h1, h2⟩ := SM.bind_ok h
  obtain ⟨rfl, -, hal, -, htd, -⟩ := initState_eff h1
  obtain ⟨W2, W3, h3, h4⟩ := SM.bind_ok h2
  obtain ⟨rfl, rfl⟩ := get_iff.mp h3
  dsimp only at h4
  obtain ⟨_, W4, h5, h6⟩ := SM.bind_ok h4
  rw [modify_iff] at h5
  subst h5
  obtain ⟨_, W5, h7, h8⟩ := SM.bind_ok h6
  obtain ⟨e1, -, -, e4⟩ := addVarWatches_eff h7
  obtain ⟨_, W6, h9, h10⟩ := SM.bind_ok h8
  rw [modify_iff] at h9
  obtain ⟨-, rfl⟩ := pure_iff.mp h10
  subst h9
  have hok : ∀ k, (qview W3.book).ok k → (qview W5.book).ok k := by
    intro k hk
    rw [e1]
    rw [qok_iff] at hk ⊢
    obtain ⟨c', h1, h2⟩ := hk
    exact ⟨c', by simp only; rw [List.getElem?_append_left (List.getElem?_eq_some_iff.mp h1).1]; exact h1, h2⟩
  have hnew : (qview W5.book).ok W3.book.cs.length := by
    rw [e1, qok_iff]
    exact ⟨st, by simp, hal⟩
  have hfl : ∀ (k : Nat) (a : Bool), (qview W5.book).flags[k]? = some (a, true) → (qview W3.book).flags[k]? = some (a, true) := by
    intro k a hk
    rw [e1] at hk
    rw [flags_get] at hk ⊢
    simp only at hk
    rw [List.getElem?_append] at hk
    split_ifs at hk with hlt
    · exact hk
    · cases hx : [st][k - W3.book.cs.length]? with
      | none => rw [hx] at hk; cases hk
      | some x =>
        have : x = st := by simpa using List.mem_of_getElem? hx
        subst this
        rw [hx] at hk
        simp [flag, htd] at hk
  have htodo : W5.book.todo = W3.book.todo := by rw [e1]
  have hrem : W5.book.removed = W3.book.removed := by rw [e1]
  have hq5 : QI m (qview W5.book) := by
    refine ⟨fun v w hw => ?_, fun r hr => ?_, fun k hk => ?_, fun k a hk => ?_, fun hm => ?_⟩
    · have hw : w ∈ W5.book.watches.getD v [] := hw
      rw [e4] at hw
      rcases List.mem_append.mp hw with hw | hw
      · exact hok _ (hq.wt v w hw)
      · obtain ⟨w', -, rfl⟩ := List.mem_map.mp hw
        exact hnew
    · have hr : r ∈ W5.book.removed := hr
      rw [hrem] at hr
      exact hok _ (hq.rm r hr)
    · have hk : k ∈ W5.book.todo := hk
      rw [htodo] at hk
      exact hok _ (hq.td k hk)
    · show k ∈ W5.book.todo
      rw [htodo]
      exact hq.mq k a (hfl k a hk)
    · obtain ⟨h1, h2⟩ := hq.cl hm
      show W5.book.todo.Nodup ∧ ∀ n ∈ W5.book.todo, _
      rw [htodo]
      refine ⟨h1, fun k hk => ?_⟩
      obtain ⟨a, ha⟩ := h2 k hk
      refine ⟨a, ?_⟩
      rw [e1]
      rw [flags_get]
      simp only
      have ha : (qview W3.book).flags[k]? = some (a, true) := ha
      rw [flags_get] at ha
      cases hc : W3.book.cs[k]? with
      | none => rw [hc] at ha; cases ha
      | some x =>
        rw [List.getElem?_append_left (List.getElem?_eq_some_iff.mp hc).1]
        exact ha
  exact hq5.mark hnew

theorem updateMinimize_view {b : Book} {n l : Nat} {x : Int} :
    qview (b.updateMinimize n l x) = qview b ∨ ∃ b0, qview b0 = qview b ∧ b.updateMinimize n l x = b0.markTodo n := by
  unfold Book.updateMinimize
  split_ifs
  · exact Or.inr ⟨{ b with minimizeBound := some x, minimizeLevel := l }, rfl, rfl⟩
  · exact Or.inr ⟨{ b with minimizeLevel := l }, rfl, rfl⟩
  · exact Or.inl rfl

theorem q_updateMinimize {b : Book} {n l : Nat} {x : Int} (h : QI m (qview b)) (hn : (qview b).ok n) : QI m (qview (b.updateMinimize n l x)) := by
  rcases updateMinimize_view (b := b) (n := n) (l := l) (x := x) with e | ⟨b0, e1, e2⟩
  · rw [e]; exact h
  · rw [e2]
    exact QI.mark (by rw [e1]; exact h) (by rw [e1]; exact hn)

theorem removed_none (h : B0 (frame W)) (hq : QF m (frame W)) : W.book.removed = [] := by
  cases hr : W.book.removed with
  | nil => rfl
  | cons r rs =>
    exfalso
    have h1 : (qview W.book).ok r.2.2 := hq.rm r (by show r ∈ W.book.removed; rw [hr]; simp)
    rw [qok_iff] at h1
    obtain ⟨c, hc, ha⟩ := h1
    have h2 := ((h.track r.2.2 c hc ha).2 r.1).2
    have h2 : W.book.removed.filter (fun s => s.1 == r.1 && s.2.2 == r.2.2) = [] := h2
    rw [hr] at h2
    simp at h2

theorem q_removeConstraints {rem : Nat → Bool} (h : B0 (frame W)) (hq : QF m (frame W)) :
    QI false (qview (W.book.removeConstraints rem)) := by
  have hu : Unmarked W.book.todo (qview { W.book with cs := Book.activate W.book.cs W.book.inactive })
      (qview { W.book with cs := Book.unmarkTodo (Book.activate W.book.cs W.book.inactive) W.book.todo }) :=
    unmarked_unmarkTodo (b := { W.book with cs := Book.activate W.book.cs W.book.inactive })
  have e : qview { W.book with cs := Book.activate W.book.cs W.book.inactive } = qview W.book := by
    unfold qview; rw [activate_flag]
  rw [e] at hu
  have hfl : ∀ k, (qview (W.book.removeConstraints rem)).flags[k]? =
      (qview W.book).flags[k]?.map (fun f => (f.1 && !rem k, f.2 && !decide (k ∈ W.book.todo))) := by
    intro k
    have h1 := hu.flags k
    rw [flags_get] at h1
    rw [flags_get]
    show (((Book.unmarkTodo (Book.activate W.book.cs W.book.inactive) W.book.todo).zipIdx.map (fun p => if rem p.2 then { p.1 with alive := false } else p.1))[k]?).map flag = _
    rw [List.getElem?_map, List.getElem?_zipIdx]
    simp only at h1
    cases hc : (Book.unmarkTodo (Book.activate W.book.cs W.book.inactive) W.book.todo)[k]? with
    | none =>
      rw [hc] at h1
      cases hf : (qview W.book).flags[k]? with
      | none => rfl
      | some f => rw [hf] at h1; cases h1
    | some c =>
      rw [hc] at h1
      cases hf : (qview W.book).flags[k]? with
      | none => rw [hf] at h1; cases h1
      | some f =>
        rw [hf] at h1
        simp [flag] at h1 ⊢
        cases hr : rem k <;> simp [← h1]
  have hok : ∀ k, (qview W.book).ok k → rem k = false → (qview (W.book.removeConstraints rem)).ok k := by
    rintro k ⟨t, ht⟩ hr
    exact ⟨_, by rw [hfl, ht]; simp [hr]; rfl⟩
  refine ⟨fun v w hw => ?_, fun r hr => ?_, fun n hn => ?_, fun n a hn => ?_, fun e => by cases e⟩
  · have hw : w ∈ (W.book.watches.map (fun ws => ws.filter (fun w => !rem w.2))).getD v [] := hw
    rw [List.getD_eq_getElem?_getD, List.getElem?_map] at hw
    cases hl : W.book.watches[v]? with
    | none => rw [hl] at hw; simp at hw
    | some l =>
      rw [hl] at hw
      simp at hw
      exact hok _ (hq.wt v w (by show w ∈ W.book.watches.getD v []; rw [List.getD_eq_getElem?_getD, hl]; exact hw.1)) hw.2
  · have hr : r ∈ W.book.removed := hr
    rw [removed_none h hq] at hr; cases hr
  · have hn : n ∈ W.book.todo.filter (fun n => !rem n) := hn
    obtain ⟨h1, h2⟩ := List.mem_filter.mp hn
    exact hok _ (hq.td n h1) (by simpa using h2)
  · exfalso
    rw [hfl] at hn
    cases hf : (qview W.book).flags[n]? with
    | none => rw [hf] at hn; cases hn
    | some f =>
      obtain ⟨a', t⟩ := f
      rw [hf] at hn
      simp at hn
      exact hn.2.2 (hq.mq n a' (by show (qview W.book).flags[n]? = _; rw [hf, hn.2.1]))

/-- Removing all watches of a constraint. -/
theorem removeVarWatches_rest {n : Nat} : ∀ {ws : List (Int × Nat)} {W W' : World} {u : Unit} (R : Nat → List Int), removeVarWatches n ws W = .ok (u, W') →
    (∀ v, (((W.book.watches.getD v []).filter (fun w => w.2 == n)).map (·.1)).Perm ((ws.filter (fun w => w.2 == v)).map (·.1) ++ R v)) →
    ∀ v, (((W'.book.watches.getD v []).filter (fun w => w.2 == n)).map (·.1)).Perm (R v)
  | [], W, W', u, R, h, hp => by
    obtain ⟨-, rfl⟩ := pure_iff.mp h
    intro v
    simpa using hp v
  | (i, x) :: ws, W, W', u, R, h, hp => by
    unfold removeVarWatches at h
    obtain ⟨_, W1, h1, h2⟩ := SM.bind_ok h
    unfold removeVarWatch at h1
    simp only [smok] at h1
    obtain ⟨W2, W3, ⟨rfl, rfl⟩, _, W4, ⟨hlt, rfl⟩, _, W5, ⟨hc, rfl⟩, rfl⟩ := h1
    refine removeVarWatches_rest R h2 (fun v => ?_)
    have key : (W5.book.watches.modify x (fun l => l.erase (i, n))).getD v [] = if x = v then (W5.book.watches.getD v []).erase (i, n) else W5.book.watches.getD v [] := by
      simp only [List.getD_eq_getElem?_getD]
      rw [List.getElem?_modify]
      by_cases hv : x = v
      · subst hv
        cases hw : W5.book.watches[x]? <;> simp
      · cases hw : W5.book.watches[v]? <;> simp [hv]
    simp only
    rw [key]
    have hpv := hp v
    by_cases hv : x = v
    · subst hv
      rw [if_pos rfl]
      simp only [List.filter_cons, beq_self_eq_true, if_true, List.map_cons, List.cons_append] at hpv
      have hmem : (i, n) ∈ W5.book.watches.getD x [] := by simpa using hc
      have hpe := (List.perm_cons_erase hmem).filter (fun w => w.2 == n)
      rw [List.filter_cons_of_pos (by simp)] at hpe
      have hpe := hpe.map (·.1)
      simp only [List.map_cons] at hpe
      exact (hpe.symm.trans hpv).cons_inv
    · rw [if_neg hv]
      have : ((i, x).2 == v) = false := by simpa using hv
      rw [List.filter_cons_of_neg (by simpa using hv)] at hpv
      exact hpv

theorem q_removeConstraint {n : Nat} {u : Unit} (h : B0 (frame W)) (hn : (qview W.book).ok n) (hx : removeConstraint n W = .ok (u, W')) (hq : QF true (frame W)) :
    QF true (frame W') := by
  unfold Clingcon.removeConstraint at hx
  obtain ⟨W1, W2, h1, h2⟩ := SM.bind_ok hx
  obtain ⟨e0, e0'⟩ := get_iff.mp h1
  rw [e0, e0'] at h2
  rw [qok_iff] at hn
  obtain ⟨c, hc, hal⟩ := hn
  rw [hc] at h2
  obtain ⟨_, W3, h3, h4⟩ := SM.bind_ok h2
  obtain ⟨l, W4, h5, h6⟩ := SM.bind_ok h4
  simp only [smok] at h5 h6
  obtain ⟨ls, hls, rfl⟩ := h5
  obtain ⟨_, W5, ⟨hl, rfl⟩, rfl⟩ := h6
  obtain ⟨e1, e2, e3, e4⟩ := removeVarWatches_eff h3
  have hnone := removeVarWatches_rest (fun _ => []) h3 (fun v => by
    rw [List.append_nil]
    exact ((h.track n c hc hal).2 v).1)
  have hcs : W5.book.cs = W.book.cs := by rw [e1]
  have ev : qview (W5.book.removeMarks n) = ⟨W5.book.watches, W.book.removed, if c.todo then W.book.todo.erase n else W.book.todo,
      (W.book.cs.map flag).set n (false, false)⟩ := by
    unfold Book.removeMarks
    rw [hcs, hc]
    simp only [qview, List.map_set, flag]
    rw [e1]
  have hlt : n < (W.book.cs.map flag).length := by simpa using (List.getElem?_eq_some_iff.mp hc).1
  show QI true (qview (W5.book.removeMarks n))
  rw [ev]
  obtain ⟨hnd, hmk⟩ := hq.cl rfl
  have hnd : W.book.todo.Nodup := hnd
  have htd : ∀ k ∈ (if c.todo then W.book.todo.erase n else W.book.todo), k ∈ W.book.todo ∧ k ≠ n := by
    intro k hk
    by_cases ht : c.todo = true
    · rw [if_pos ht] at hk
      exact ⟨List.mem_of_mem_erase hk, fun e => by subst e; exact hnd.not_mem_erase hk⟩
    · rw [if_neg ht] at hk
      refine ⟨hk, fun e => ?_⟩
      subst e
      obtain ⟨a, ha⟩ := hmk k hk
      have ha : (qview W.book).flags[k]? = some (a, true) := ha
      rw [flags_get, hc] at ha
      simp [flag] at ha
      exact ht ha.2
  have hok : ∀ k, k ≠ n → (qview W.book).ok k → QView.ok ⟨W5.book.watches, W.book.removed, if c.todo then W.book.todo.erase n else W.book.todo,
      (W.book.cs.map flag).set n (false, false)⟩ k := by
    rintro k hk ⟨t, ht⟩
    exact ⟨t, by simp only; rw [List.getElem?_set_ne (Ne.symm hk)]; exact ht⟩
  refine ⟨fun v w hw => ?_, fun r hr => ?_, fun k hk => ?_, fun k a hk => ?_, fun _ => ⟨?_, fun k hk => ?_⟩⟩
  · refine hok _ (fun e => ?_) (hq.wt v w (e3 v w hw))
    have : w.1 ∈ ((W5.book.watches.getD v []).filter (fun w => w.2 == n)).map (·.1) :=
      List.mem_map.mpr ⟨w, List.mem_filter.mpr ⟨hw, by simpa using e⟩, rfl⟩
    have := (hnone v).mem_iff.mp this
    cases this
  · have hr : r ∈ W.book.removed := hr
    rw [removed_none h hq] at hr; cases hr
  · obtain ⟨h1, h2⟩ := htd k hk
    exact hok _ h2 (hq.td k h1)
  · have hne : k ≠ n := by
      intro e
      subst e
      simp only [List.getElem?_set_self hlt] at hk
      simp at hk
    simp only [List.getElem?_set_ne (Ne.symm hne)] at hk
    have := hq.mq k a hk
    have : k ∈ W.book.todo := this
    simp only
    split_ifs
    · exact (List.mem_erase_of_ne hne).mpr this
    · exact this
  · simp only
    split_ifs
    · exact hnd.erase n
    · exact hnd
  · obtain ⟨h1, h2⟩ := htd k hk
    obtain ⟨a, ha⟩ := hmk k h1
    exact ⟨a, by simp only; rw [List.getElem?_set_ne (Ne.symm h2)]; exact ha⟩

theorem exists_iff {n : Nat} : Spec.exists_ W n ↔ (qview W.book).ok n := qok_iff.symm

theorem q_step {op : Op} {r d : Bool} (hi : WI W) (hp : op.pre W) (hs : Spec.properCall d W op) (h : op.exec W = .ok (r, W')) (hq : QF (!d) (frame W)) :
    QF (!(d || Spec.removesMarked op)) (frame W') := by
  have kp : ∀ {m : Bool} {α : Type} {x : SM α} {a : α} {W' : World}, Keep (QF m) x → x W = .ok (a, W') → QF m (frame W) → QF m (frame W') :=
    fun hk hx => hk.keep _ _ _ hx
  cases op with
  | addVar lo hi' =>
    obtain ⟨_, W1, h1, h2⟩ := SM.bind_ok h
    obtain ⟨-, rfl⟩ := pure_iff.mp h2
    obtain ⟨v, h3⟩ := discard_iff.mp h1
    simpa [Spec.removesMarked] using q_addVar h3 hq
  | addConstraint c =>
    obtain ⟨_, W1, h1, h2⟩ := SM.bind_ok h
    obtain ⟨-, rfl⟩ := pure_iff.mp h2
    obtain ⟨v, h3⟩ := discard_iff.mp h1
    simpa [Spec.removesMarked] using q_addConstraint h3 hq
  | removeConstraint n =>
    obtain ⟨_, W1, h1, h2⟩ := SM.bind_ok h
    obtain ⟨-, rfl⟩ := pure_iff.mp h2
    obtain ⟨hn, rfl⟩ := hs
    exact q_removeConstraint (hi.b0 hp) (exists_iff.mp hn) h1 hq
  | removeConstraints rem =>
    obtain ⟨_, W1, h1, h2⟩ := SM.bind_ok h
    obtain ⟨-, rfl⟩ := pure_iff.mp h2
    obtain rfl := modify_iff.mp h1
    have := q_removeConstraints (rem := rem) (hi.b0 hp) hq
    simp only [Spec.removesMarked, Bool.or_true]
    exact this
  | updateMinimize n l b =>
    obtain ⟨_, W1, h1, h2⟩ := SM.bind_ok h
    obtain ⟨-, rfl⟩ := pure_iff.mp h2
    obtain rfl := modify_iff.mp h1
    have := q_updateMinimize (l := l) (x := b) hq (exists_iff.mp hs)
    simp only [Spec.removesMarked, Bool.or_false]
    exact this
  | enable =>
    have e : QF (!d) (frame W') := by rw [(enable_iff.mp h).2]; exact hq
    simpa [Spec.removesMarked] using e
  | fresh => simpa [Spec.removesMarked] using kp (Keep.fr fr_fresh) h hq
  | post e => simpa [Spec.removesMarked] using kp (Keep.fr fr_post) h hq
  | literal cc v x => simpa [Spec.removesMarked] using kp (Keep.bind (Keep.discard (Keep.fr fr_getLiteral)) (fun _ => Keep.fr Fr.pure)) h hq
  | updLiteral cc v x t => simpa [Spec.removesMarked] using kp (Keep.bind (Keep.discard (Keep.fr fr_updateLiteral)) (fun _ => Keep.fr Fr.pure)) h hq
  | simple cc l co v r s => simpa [Spec.removesMarked] using kp (Keep.fr fr_addSimple) h hq
  | dom cc l v d => simpa [Spec.removesMarked] using kp (Keep.fr fr_addDom) h hq
  | propagate cc ls => simpa [Spec.removesMarked] using kp q_solverPropagate h hq
  | check cc b n => simpa [Spec.removesMarked] using kp q_solverCheck h hq
  | simplify cc t b n =>
    have : Keep (QF (!d)) (solverSimplify cc t b n) := by
      unfold solverSimplify
      exact q_factLoop
    simpa [Spec.removesMarked] using kp this h hq
  | undo => simpa [Spec.removesMarked] using kp (Keep.bind q_solverUndo (fun _ => Keep.fr Fr.pure)) h hq
  | decide cc l => simpa [Spec.removesMarked] using kp (Keep.bind (Keep.discard (Keep.fr fr_solverDecide)) (fun _ => Keep.fr Fr.pure)) h hq
  | checkFull cc b => simpa [Spec.removesMarked] using kp (Keep.bind (Keep.q fun K => keepQ_solverCheckFull) (fun _ => Keep.fr Fr.pure)) h hq
  | updateBounds cc o b n =>
    have : Keep (QF (!d)) (updateBounds cc o b n) := by
      unfold Clingcon.updateBounds
      refine Keep.bind (Keep.fr fr_takeBounds) (fun b => ?_)
      split
      · exact Keep.fr Fr.pure
      · exact q_solverCheck
    simpa [Spec.removesMarked] using kp this h hq
  | update n =>
    have : Keep (QF (!d)) (solverUpdate n) := by
      unfold solverUpdate
      exact Keep.bind (Keep.q fun K => keepQ_modify (fun _ => rfl)) (fun _ => Keep.bind (Keep.fr Fr.get) (fun W => Keep.fr fr_updateStep))
    simpa [Spec.removesMarked] using kp (Keep.bind this (fun _ => Keep.fr Fr.pure)) h hq

theorem q_run {d d' : Bool} {ops : List Op} (h : Spec.ProperRun d ops W d' W') : WI W → QF (!d) (frame W) → QF (!d') (frame W') := by
  induction h with
  | nil => exact fun _ => id
  | @cons d d' op ops W W1 W2 r hp hs hx _ ih =>
    intro hi hq
    have h1 := q_step hi hp hs hx hq
    refine ih (step_eff hp hx hi).1 ?_
    cases ht : W1.book.todo with
    | nil => exact QI.clean h1 ht
    | cons => simpa using h1

theorem q_init {n : Int} : QF m (frame (World.init n)) := by
  refine ⟨fun v w hw => ?_, fun r hr => ?_, fun k hk => ?_, fun k a hk => ?_, fun _ => ⟨?_, fun k hk => ?_⟩⟩ <;>
    simp [qview, frame, World.init] at *

end Clingcon
