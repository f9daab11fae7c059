import Verif.Proof.Steps

/-! The constraints and the objective bound are not changed by propagation. -/
set_option linter.unusedSimpArgs false
set_option linter.unusedVariables false
namespace Clingcon
open Spec VarState

variable {α γ : Type} {W W' : World} {K : List Constr × Option Int}

/-- The constraints ever added and the bound of the objective. -/
def konsB (b : Book) : List Constr × Option Int := (b.cs.map (·.con), b.minimizeBound)

/-- The constraints ever added and the bound of the objective are the given ones. -/
def Kons (K : List Constr × Option Int) (F : List VarState × Book) : Prop := konsB F.2 = K

theorem konsB_get {b : Book} {n : Nat} {c : CState} (h : b.cs[n]? = some c) : c.con ∈ (konsB b).1 :=
  List.mem_map.mpr ⟨c, List.mem_of_getElem? h, rfl⟩

theorem map_con_eq {cs cs' : List CState} (hl : cs'.length = cs.length) (h : ∀ (n : Nat) c, cs[n]? = some c → ∃ c', cs'[n]? = some c' ∧ c'.con = c.con) :
    cs'.map (·.con) = cs.map (·.con) := by
  apply List.ext_getElem?
  intro n
  rw [List.getElem?_map, List.getElem?_map]
  cases hc : cs[n]? with
  | none =>
    have : cs'[n]? = none := by
      rw [List.getElem?_eq_none_iff] at hc ⊢; omega
    rw [this]
  | some c =>
    obtain ⟨c', h1, h2⟩ := h n c hc
    rw [h1]; simp [h2]

theorem map_con_set {cs : List CState} {n : Nat} {c c' : CState} (hc : cs[n]? = some c) (h : c'.con = c.con) : (cs.set n c').map (·.con) = cs.map (·.con) := by
  refine map_con_eq (by simp) (fun m d hd => ?_)
  by_cases hm : n = m
  · subst hm
    rw [hc] at hd; injection hd with hd; subst hd
    refine ⟨c', ?_, h⟩
    rw [List.getElem?_set_self (List.getElem?_eq_some_iff.mp hc).1]
  · exact ⟨d, by rw [List.getElem?_set_ne hm]; exact hd, rfl⟩

theorem map_con_modify {cs : List CState} {n : Nat} {f : CState → CState} (h : ∀ c, (f c).con = c.con) : (cs.modify n f).map (·.con) = cs.map (·.con) := by
  refine map_con_eq (by simp) (fun m d hd => ?_)
  rw [List.getElem?_modify, hd]
  refine ⟨_, rfl, ?_⟩
  split_ifs
  · exact h d
  · rfl

theorem map_con_foldl {f : CState → CState} (h : ∀ c, (f c).con = c.con) : ∀ {ns : List Nat} {cs : List CState},
    (ns.foldl (fun cs n => cs.modify n f) cs).map (·.con) = cs.map (·.con)
  | [], _ => rfl
  | n :: ns, cs => by rw [List.foldl_cons, map_con_foldl h, map_con_modify h]

theorem keepK_setCS {n : Nat} {f : CState → CState} {k : CState → SM γ} (hf : ∀ c, (f c).con = c.con) (hk : ∀ c, Keep (Kons K) (k c)) :
    Keep (Kons K) (getCS n >>= fun c => setCS n (f c) >>= fun _ => k c) := by
  refine ⟨fun W a W' hx h => ?_⟩
  obtain ⟨c, W1, h1, h2⟩ := SM.bind_ok hx
  obtain ⟨⟨hc, -⟩, rfl⟩ := getCS_iff.mp h1
  obtain ⟨_, W2, h3, h4⟩ := SM.bind_ok h2
  injection h3 with h3
  obtain ⟨-, rfl⟩ := Prod.mk.inj h3
  refine (hk c).keep _ _ _ h4 ?_
  rw [← h]
  exact Prod.ext (map_con_set hc (hf c)) rfl

theorem Keep.modK {f : Book → Book} (h : ∀ b, konsB (f b) = konsB b) : Keep (Kons K) (modify (fun W => { W with book := f W.book }) : SM Unit) := by
  refine ⟨fun W a W' hx hp => ?_⟩
  rw [modify_iff] at hx
  subst hx
  exact (h _).trans hp

theorem markInactive_kons {b : Book} {l n : Nat} : konsB (b.markInactive l n) = konsB b := by
  unfold Book.markInactive
  cases hc : b.cs[n]? with
  | none => rfl
  | some c =>
    dsimp only
    split
    · exact Prod.ext (map_con_set hc rfl) rfl
    · rfl

theorem markTodo_kons {b : Book} {n : Nat} : konsB (b.markTodo n) = konsB b := by
  unfold Book.markTodo
  cases hc : b.cs[n]? with
  | none => rfl
  | some c =>
    dsimp only
    split
    · rfl
    · split
      · rfl
      · exact Prod.ext (map_con_set hc rfl) rfl

theorem markTodo_foldl_kons : ∀ {ns : List Nat} {b : Book}, konsB (ns.foldl Book.markTodo b) = konsB b
  | [], _ => rfl
  | n :: ns, b => by rw [List.foldl_cons, markTodo_foldl_kons, markTodo_kons]

theorem keepK_markInactiveS {n : Nat} : Keep (Kons K) (markInactiveS n) := by
  unfold markInactiveS
  exact Keep.bind (Keep.fr Fr.curLevel) (fun l => Keep.modK (fun b => markInactive_kons))
macro_rules | `(tactic| keep_step) => `(tactic| with_reducible exact keepK_markInactiveS)

theorem keepK_sumPropagate {cc : CC} {n : Nat} {ck t : Bool} {l r : Int} {es : List (Int × Nat)} : Keep (Kons K) (sumPropagate cc n ck t l r es) := by
  unfold sumPropagate; keep_auto
macro_rules | `(tactic| keep_step) => `(tactic| with_reducible exact keepK_sumPropagate)

theorem keepK_nonlinearPropagate {cc : CC} {n : Nat} {ca cb r : Int} {x y z : Nat} : Keep (Kons K) (nonlinearPropagate cc n ca x y cb z r) := by
  unfold nonlinearPropagate; keep_auto
macro_rules | `(tactic| keep_step) => `(tactic| with_reducible exact keepK_nonlinearPropagate)

theorem distinctUpdate_con {es : List (List (Int × Nat) × Int)} : ∀ {is : List Nat} {c c' : CState} {W W' : World},
    distinctUpdate es is c W = .ok (c', W') → c'.con = c.con
  | [], c, c', W, W', h => by
    unfold distinctUpdate at h
    obtain ⟨rfl, -⟩ := pure_iff.mp h
    rfl
  | i :: is, c, c', W, W', h => by
    unfold distinctUpdate at h
    cases he : es[i]? with
    | none => rw [he] at h; cases h
    | some e =>
    cases ho : c.assigned[i]? with
    | none => rw [he, ho] at h; cases h
    | some o =>
      rw [he, ho] at h
      obtain ⟨_, W1, _, h⟩ := SM.bind_ok h
      obtain ⟨_, W2, _, h⟩ := SM.bind_ok h
      obtain ⟨_, W3, _, h⟩ := SM.bind_ok h
      have := distinctUpdate_con h
      exact this

theorem keepK_distinctPropagate {cc : CC} {n : Nat} {l : Int} {es : List (List (Int × Nat) × Int)} : Keep (Kons K) (distinctPropagate cc n l es) := by
  unfold distinctPropagate
  refine ⟨fun W a W' hx h => ?_⟩
  obtain ⟨c, W1, h1, h2⟩ := SM.bind_ok hx
  obtain ⟨⟨hcs, hal⟩, rfl⟩ := getCS_iff.mp h1
  obtain ⟨c', W2, h3, h4⟩ := SM.bind_ok h2
  obtain ⟨_, W3, h5, h6⟩ := SM.bind_ok h4
  injection h5 with h5
  obtain ⟨-, rfl⟩ := Prod.mk.inj h5
  have hf : W2.book = W1.book := congrArg Prod.snd (fr_distinctUpdate.fr _ _ _ h3)
  refine Keep.keep (P := Kons K) ?_ _ _ _ h6 ?_
  · have hfin : Keep (Kons K) (getCS n >>= fun c => setCS n c.clearTodo >>= fun _ => (Pure.pure true : SM Bool)) :=
      keepK_setCS (f := fun c => c.clearTodo) (fun _ => rfl) (fun _ => Keep.fr Fr.pure)
    refine Keep.bind (Keep.fr fr_distinctTodo) (fun b => ?_)
    split
    · exact Keep.fr Fr.pure
    · refine Keep.bind (Keep.fr fr_distinctTodo) (fun b => ?_)
      split
      · exact Keep.fr Fr.pure
      · exact hfin
  · rw [← h]
    show konsB { W2.book with cs := W2.book.cs.set n c' } = konsB W1.book
    rw [hf]
    exact Prod.ext (map_con_set hcs (distinctUpdate_con h3)) rfl
macro_rules | `(tactic| keep_step) => `(tactic| with_reducible exact keepK_distinctPropagate)

theorem keepK_disjointPropagate {cc : CC} {n : Nat} {l : Int} : Keep (Kons K) (disjointPropagate cc n l) := by
  unfold disjointPropagate
  refine Keep.bind (Keep.fr Fr.getCS) (fun c => ?_)
  refine Keep.bind (Keep.fr fr_disjointLoad) (fun is => ?_)
  refine Keep.bind (Keep.fr fr_disjointRun) (fun p => ?_)
  refine keepK_setCS (f := fun c => { c with intervals := p.2, forceUpdate := false }) (fun _ => rfl) (fun c' => ?_)
  split
  · exact Keep.fr Fr.pure
  · refine Keep.bind (Keep.fr fr_disjointRun) (fun q => ?_)
    exact keepK_setCS (f := fun c => { c with intervals := q.2 }) (fun _ => rfl) (fun _ => Keep.fr Fr.pure)
macro_rules | `(tactic| keep_step) => `(tactic| with_reducible exact keepK_disjointPropagate)

theorem keepK_propagateCS {cc : CC} {ck : Bool} {n : Nat} : Keep (Kons K) (propagateCS cc ck n) := by
  unfold propagateCS; keep_auto

theorem keepK_checkOne {cc : CC} {ck : Bool} {n : Nat} : Keep (Kons K) (checkOne cc ck n) := by
  unfold checkOne
  refine keepK_setCS (f := fun c => { c with todo := false }) (fun _ => rfl) (fun c => ?_)
  refine Keep.bind (Keep.fr Fr.qFalse) (fun b => ?_)
  split
  · exact keepK_propagateCS
  · keep_auto

theorem unmarkTodo_con {cs : List CState} {ns : List Nat} : (Book.unmarkTodo cs ns).map (·.con) = cs.map (·.con) :=
  map_con_foldl (f := fun c => { c with todo := false }) (fun _ => rfl)

theorem activate_con {cs : List CState} {ns : List Nat} : (Book.activate cs ns).map (·.con) = cs.map (·.con) :=
  map_con_foldl (f := fun c => { c with inactive := 0 }) (fun _ => rfl)

theorem keepK_checkTodo {cc : CC} {ck : Bool} : ∀ {ns : List Nat}, Keep (Kons K) (checkTodo cc ck ns)
  | [] => Keep.fr Fr.pure
  | n :: ns => by
    unfold checkTodo
    refine Keep.bind keepK_checkOne (fun b => ?_)
    split
    · exact Keep.bind (Keep.modK (f := fun b => { b with cs := Book.unmarkTodo b.cs ns }) (fun b => Prod.ext unmarkTodo_con rfl)) (fun _ => Keep.fr Fr.pure)
    · exact keepK_checkTodo

/-- The change of the book made by a computation keeps the constraints. -/
theorem Keep.sameBook {x : SM α} (h : ∀ W a W', x W = .ok (a, W') → konsB W'.book = konsB W.book) : Keep (Kons K) x :=
  ⟨fun W a W' hx hp => (h W a W' hx).trans hp⟩

theorem keepK_updateLower {l v : Nat} {x : Int} : Keep (Kons K) (updateLower l v x) :=
  Keep.sameBook (fun W u W' h => by obtain ⟨y, -, e⟩ := updateLower_frame h; have e := congrArg Prod.snd e; simp only [frame] at e; rw [e]; rfl)
theorem keepK_updateUpper {l v : Nat} {x : Int} : Keep (Kons K) (updateUpper l v x) :=
  Keep.sameBook (fun W u W' h => by obtain ⟨y, -, e⟩ := updateUpper_frame h; have e := congrArg Prod.snd e; simp only [frame] at e; rw [e]; rfl)
macro_rules | `(tactic| keep_step) => `(tactic| with_reducible exact keepK_updateLower)
macro_rules | `(tactic| keep_step) => `(tactic| with_reducible exact keepK_updateUpper)
theorem keepK_updateUpperLit {cc : CC} {l v : Nat} {lit value sl : Int} : Keep (Kons K) (updateUpperLit cc l v lit value sl) := by
  unfold updateUpperLit; keep_auto
theorem keepK_updateLowerLit {cc : CC} {l v : Nat} {lit value sl : Int} : Keep (Kons K) (updateLowerLit cc l v lit value sl) := by
  unfold updateLowerLit; keep_auto
macro_rules | `(tactic| keep_step) => `(tactic| with_reducible exact keepK_updateUpperLit)
macro_rules | `(tactic| keep_step) => `(tactic| with_reducible exact keepK_updateLowerLit)
theorem keepK_propagateFacts {cc : CC} {l : Nat} : ∀ {fs : List (Int × Nat × Int × Int)}, Keep (Kons K) (propagateFacts cc l fs)
  | [] => by unfold propagateFacts; keep_auto
  | (a, b, c, d) :: fs => by
    have ih := keepK_propagateFacts (cc := cc) (l := l) (fs := fs)
    unfold propagateFacts; keep_auto
macro_rules | `(tactic| keep_step) => `(tactic| with_reducible exact keepK_propagateFacts)
theorem keepK_updateDomain {cc : CC} {lit : Int} : Keep (Kons K) (updateDomain cc lit) := by unfold updateDomain; keep_auto
macro_rules | `(tactic| keep_step) => `(tactic| with_reducible exact keepK_updateDomain)
theorem keepK_integrateFacts {cc : CC} : Keep (Kons K) (integrateFacts cc) := by unfold integrateFacts; keep_auto
macro_rules | `(tactic| keep_step) => `(tactic| with_reducible exact keepK_integrateFacts)

theorem updateConstraints_kons {level var : Nat} {d : Int} {b b' : Book} (h : Book.updateConstraints level var d b = .ok b') : konsB b' = konsB b := by
  obtain ⟨p, added, he, -, -, rfl⟩ := updateConstraints_ok h
  have e := he.rest
  refine Prod.ext (map_con_eq he.len (fun n c hc => ?_)) ?_
  · obtain ⟨c', h1, h2, -⟩ := he.cs n c hc
    exact ⟨c', h1, h2.con⟩
  · show p.2.minimizeBound = b.minimizeBound
    rw [e]

theorem updateUppers_kons {level : Nat} : ∀ {vs : List Nat} {b b' : Book}, Book.updateUppers level vs b = .ok b' → konsB b' = konsB b
  | [], b, b', h => by injection h with h; subst h; rfl
  | v :: vs, b, b', h => by
    unfold Book.updateUppers at h
    cases hb : Book.updateConstraints level v (b.udiff.getD v 0) b with
    | error e => rw [hb] at h; cases h
    | ok b1 =>
      rw [hb] at h
      have h1 := updateUppers_kons (b := { b1 with udiff := b1.udiff.set v 0 }) h
      rw [h1, ← updateConstraints_kons hb]; rfl

theorem updateLowers_kons {level : Nat} : ∀ {vs : List Nat} {b b' : Book}, Book.updateLowers level vs b = .ok b' → konsB b' = konsB b
  | [], b, b', h => by injection h with h; subst h; rfl
  | v :: vs, b, b', h => by
    unfold Book.updateLowers at h
    cases hb : Book.updateConstraints level v (b.ldiff.getD v 0) b with
    | error e => rw [hb] at h; cases h
    | ok b1 =>
      rw [hb] at h
      have h1 := updateLowers_kons (b := { b1 with ldiff := b1.ldiff.set v 0 }) h
      rw [h1, ← updateConstraints_kons hb]; rfl

theorem deliver_only {level : Nat} {u : Unit} (h : deliver level W = .ok (u, W')) : ∃ b, W' = { W with book := b } ∧ konsB b = konsB W.book := by
  unfold deliver at h
  obtain ⟨W1, W2, h1, h2⟩ := SM.bind_ok h
  obtain ⟨rfl, rfl⟩ := get_iff.mp h1
  obtain ⟨b1, W3, h3, h4⟩ := SM.bind_ok h2
  obtain ⟨h3, rfl⟩ := liftRes_iff.mp h3
  obtain ⟨b2, W4, h5, h6⟩ := SM.bind_ok h4
  obtain ⟨g5, rfl⟩ := liftRes_iff.mp h5
  rw [modify_iff] at h6
  subst h6
  exact ⟨b2, rfl, (updateLowers_kons g5).trans (updateUppers_kons h3)⟩

theorem keepK_deliver {level : Nat} : Keep (Kons K) (deliver level) :=
  Keep.sameBook (fun W u W' h => by obtain ⟨b, rfl, e⟩ := deliver_only h; exact e)
macro_rules | `(tactic| keep_step) => `(tactic| with_reducible exact keepK_deliver)

theorem keepK_checkLoop {cc : CC} {ck : Bool} {level : Nat} : ∀ {n : Nat}, Keep (Kons K) (checkLoop cc ck level n)
  | 0 => ⟨fun W a W' h => by cases h⟩
  | n + 1 => by
    have ih := keepK_checkLoop (cc := cc) (ck := ck) (level := level) (n := n)
    unfold checkLoop
    refine Keep.bind keepK_integrateFacts (fun b => ?_)
    split
    · exact Keep.fr Fr.pure
    · refine Keep.bind keepK_deliver (fun _ => Keep.bind (Keep.fr Fr.get) (fun W => Keep.bind keepK_checkTodo (fun r => ?_)))
      refine Keep.bind (Keep.modK (f := fun b => { b with todo := [] }) (fun b => rfl)) (fun _ => Keep.bind (Keep.fr Fr.get) (fun W => ?_))
      split
      · exact Keep.fr Fr.pure
      · exact ih

theorem keepK_solverCheck {cc : CC} {ck : Bool} {n : Nat} : Keep (Kons K) (solverCheck cc ck n) := by
  unfold solverCheck
  refine Keep.bind (Keep.fr Fr.curLevel) (fun l => Keep.bind (Keep.fr Fr.get) (fun W => ?_))
  split
  · exact Keep.fr Fr.pure
  · exact keepK_checkLoop

theorem keepK_pushLevel {n : Nat} : Keep (Kons K) (pushLevel n) := by
  unfold pushLevel
  refine Keep.bind (Keep.fr Fr.curLevel) (fun l => Keep.whenS ?_)
  exact Keep.sameBook (fun W u W' h => by rw [modify_iff] at h; subst h; rfl)

theorem keepK_propagateLit {cc : CC} {l : Int} : Keep (Kons K) (propagateLit cc l) := by
  unfold propagateLit
  exact Keep.bind (Keep.modK (f := fun b => (b.consOf l).foldl Book.markTodo b) (fun b => markTodo_foldl_kons)) (fun _ => keepK_updateDomain)

theorem keepK_propagateLits {cc : CC} : ∀ {ls : List Int}, Keep (Kons K) (propagateLits cc ls)
  | [] => Keep.fr Fr.pure
  | l :: ls => by
    unfold propagateLits
    refine Keep.bind keepK_propagateLit (fun b => ?_)
    split
    · exact Keep.fr Fr.pure
    · exact keepK_propagateLits

theorem keepK_solverPropagate {cc : CC} {ls : List Int} : Keep (Kons K) (solverPropagate cc ls) := by
  unfold solverPropagate
  exact Keep.bind keepK_pushLevel (fun _ => keepK_propagateLits)

end Clingcon
