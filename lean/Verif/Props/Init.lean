import Verif.Proof.Init

/-! Property C78: preparing the solvers of all threads. -/
set_option linter.unusedSimpArgs false
set_option linter.unusedVariables false
namespace Clingcon.Props
open Clingcon Clingcon.Spec

variable {T T' T1 : Threads} {env : InitEnv} {atoms : List Op} {new : Option (Int × CoVarVec)} {ws : List Lit}

theorem _root_.Clingcon.Spec.Resting.main (h : Resting T) : Main T.master T.constraints T.minimize := ⟨⟨h.reach, h.top⟩, h.quiet, ia_iff.mpr h.idle, h.once, h.listed, h.objective⟩

theorem _root_.Clingcon.Spec.Resting.of (h : Main T.master T.constraints T.minimize) (ho : ∀ o ∈ T.others, Sits o) : Resting T :=
  ⟨h.sits.1, h.sits.2, h.quiet, ia_iff.mp h.ia, ho, h.once, h.listed, h.objective⟩

theorem removeObjective_rests (h : Resting T) (hx : removeObjective T = .ok T1) : Resting T1 ∧ T1.minimize = none := by
  unfold removeObjective at hx
  cases hm : T.minimize with
  | none =>
    rw [hm] at hx
    injection hx with hx
    subst hx
    exact ⟨h, hm⟩
  | some n =>
    rw [hm] at hx
    obtain ⟨p, h1, h2⟩ := res_bind hx
    obtain ⟨os, h3, h4⟩ := res_bind h2
    injection h4 with h4
    subst h4
    have hmain := h.main
    rw [hm] at hmain
    exact ⟨.of (hmain.remove (u := p.1) h1) (each_sits (op := .removeConstraint n) rfl (fun W h => h) (fun _ _ e => by cases e) (fun e => by cases e) h3 h.others), rfl⟩

theorem updateSolvers_rests (h : Resting T) (hx : updateSolvers T = .ok T1) : Resting T1 ∧ T1.minimize = T.minimize := by
  unfold updateSolvers at hx
  obtain ⟨p, h1, h2⟩ := res_bind hx
  obtain ⟨os, h3, h4⟩ := res_bind h2
  injection h4 with h4
  subst h4
  exact ⟨.of (h.main.update (u := p.1) h1) (each_sits (op := .update T.marked) rfl (fun W h => trivial) (fun _ _ e => by cases e) (fun e => by cases e) h3 h.others), rfl⟩

/-- The first part of `init` leaves the propagator as described by `Resting`, and without an objective. -/
theorem C78_prepared (h0 : env.cc.level = 0) (h : Resting T) (hx : prepareInit env atoms T = .ok (true, T1)) : Resting T1 ∧ T1.minimize = none := by
  unfold prepareInit at hx
  obtain ⟨Ta, a1, hx⟩ := res_bind hx
  obtain ⟨ra, ma⟩ := removeObjective_rests h a1
  obtain ⟨Tb, b1, hx⟩ := res_bind hx
  obtain ⟨rb, mb⟩ := updateSolvers_rests ra b1
  rw [ma] at mb
  obtain ⟨p, c1, hx⟩ := res_bind hx
  obtain ⟨r, W1, ns⟩ := p
  cases r with
  | false => injection hx with hx; injection hx with hx; cases hx
  | true =>
  have hmain := rb.main
  rw [mb] at hmain
  have m1 := hmain.atoms c1
  obtain ⟨p, d1, hx⟩ := res_bind (show (_ >>= _ : Res (Bool × Threads)) = _ from hx)
  obtain ⟨r, W2⟩ := p
  cases r with
  | false => injection hx with hx; injection hx with hx; cases hx
  | true =>
  have m2 := m1.gather h0 d1
  obtain ⟨p, e1, hx⟩ := res_bind (show (_ >>= _ : Res (Bool × Threads)) = _ from hx)
  obtain ⟨r, W3⟩ := p
  injection hx with hx
  injection hx with hr hx
  subst hx
  have hr : r = true := hr
  subst hr
  have m3 := m2.simplify h0 e1
  refine ⟨.of ?_ rb.others, mb⟩
  show Main W3 ns Tb.minimize
  rw [mb]
  exact m3

theorem addObjective_main {T2 : Threads} (h : Main T.master T.constraints none) (hm : T.minimize = none) (hx : addObjective new T = .ok T2) :
    Main T2.master T2.constraints T2.minimize ∧ T2.others = T.others ∧ T2.bound = T.bound ∧
      ((T2.master = T.master ∧ new = none) ∨ ∃ a es n, new = some (a, es) ∧ addConstraint (.minimize a es) T.master = .ok (n, T2.master) ∧ T2.minimize = some n) := by
  unfold addObjective at hx
  cases new with
  | none =>
    injection hx with hx
    subst hx
    exact ⟨by rw [hm]; exact h, rfl, rfl, .inl ⟨rfl, rfl⟩⟩
  | some p =>
    obtain ⟨a, es⟩ := p
    obtain ⟨q, h1, h2⟩ := res_bind hx
    obtain ⟨n, W1⟩ := q
    injection h2 with h2
    subst h2
    obtain ⟨-, a1, a2, a3, a4, a5, a6⟩ := h.add h1
    refine ⟨⟨a1, a2, a3, a4, a5, fun k => ?_⟩, rfl, rfl, .inr ⟨a, es, n, rfl, h1, rfl⟩⟩
    obtain ⟨e1, -⟩ := states_add h1
    show some n = some k ↔ _
    rw [a6]
    constructor
    · intro e
      injection e with e
      subst e
      exact ⟨a, es, by rw [e1, List.getElem?_append_right (le_refl _)]; simp⟩
    · rintro ⟨a', es', he⟩
      rw [List.getElem?_append] at he
      split_ifs at he with hk
      · have := (h.objective k).mpr ⟨a', es', he⟩
        cases this
      · have := (List.getElem?_eq_some_iff.mp he).1
        simp at this
        congr 1
        omega

theorem informed_add {c : Constr} {n : Nat} {W W' : World} (h : Informed W) (hn : Nonzero c) (hd : ∀ lit es, c ≠ .distinct lit es) (hx : addConstraint c W = .ok (n, W')) : Informed W' := by
  intro m x hm ha
  rcases add_cs hx m x hm with ⟨y, h1, h2, h3, h4⟩ | ⟨rfl, h2⟩
  · obtain ⟨g1, g2⟩ := h m y h1 (by rw [← h3]; exact ha)
    exact ⟨by rw [h2]; exact g1, fun lit es e => by rw [h4]; exact g2 lit es (by rw [← h2]; exact e)⟩
  · exact ⟨by rw [h2]; exact hn, fun lit es e => absurd (h2.symm.trans e) (hd lit es)⟩

/-- What `init` does after the first part. -/
theorem init_parts (h0 : env.cc.level = 0) (hs : SortOk env.tc) (h : Resting T) (hi : ∀ T1, prepareInit env atoms T = .ok (true, T1) → Informed T1.master)
    (hx : propInit env atoms new T = .ok (true, T', ws)) :
    ∃ T1 T2 T3 : Threads, ∃ kept : List TCon, prepareInit env atoms T = .ok (true, T1) ∧ Resting T1 ∧ T1.minimize = none ∧ addObjective new T1 = .ok T2 ∧ Main T2.master T2.constraints T2.minimize ∧
      Informed T2.master ∧ solverTranslate env.cc env.tc env.fuel env.steps (T2.constraints.map .old) T2.master = .ok ((true, kept), T3.master) ∧
      T3.constraints = stateNumbers kept ∧ T3.minimize = (if T3.master.book.translateMinimize then none else T2.minimize) ∧ T3.others = T1.others ∧ T3.bound = T1.bound ∧
      finishInit env T3 = .ok T' ∧ ws = watchedLits T3 := by
  unfold propInit at hx
  obtain ⟨p, a1, hx⟩ := res_bind hx
  obtain ⟨r, T1⟩ := p
  cases r with
  | false => injection hx with hx; injection hx with hx; cases hx
  | true =>
  obtain ⟨r1, m1⟩ := C78_prepared h0 h a1
  obtain ⟨p, b1, hx⟩ := res_bind (show (_ >>= _ : Res (Bool × Threads × List Lit)) = _ from hx)
  obtain ⟨r, T3⟩ := p
  cases r with
  | false => injection hx with hx; injection hx with hx; cases hx
  | true =>
  unfold translateInit at b1
  obtain ⟨T2, c1, b1⟩ := res_bind b1
  obtain ⟨p, d1, b1⟩ := res_bind b1
  obtain ⟨⟨r, kept⟩, W3⟩ := p
  cases r with
  | false => injection b1 with b1; injection b1 with b1; cases b1
  | true =>
  injection b1 with b1
  injection b1 with _ b1
  have hmain := r1.main
  rw [m1] at hmain
  obtain ⟨m2, o2, bd2, hc⟩ := addObjective_main hmain m1 c1
  have i2 : Informed T2.master := by
    rcases hc with ⟨e, -⟩ | ⟨a, es, n, e, hadd, -⟩
    · rw [e]; exact hi T1 a1
    · exact informed_add (c := .minimize a es) (hi T1 a1) trivial (fun lit es e => by cases e) hadd
  have hx : (if !env.commit then (.ok (false, T3, watchedLits T3) : Res (Bool × Threads × List Lit)) else (do let T ← finishInit env T3; return (true, T, watchedLits T3))) = .ok (true, T', ws) := hx
  split at hx
  · injection hx with hx; injection hx with hx; cases hx
  · obtain ⟨T4, f1, f2⟩ := res_bind hx
    injection f2 with f2
    injection f2 with _ f2
    obtain ⟨rfl, rfl⟩ := Prod.mk.inj f2
    refine ⟨T1, T2, T3, kept, a1, r1, m1, c1, m2, i2, ?_, ?_, ?_, ?_, ?_, f1, rfl⟩ <;> rw [← b1]
    · exact d1
    · exact o2
    · exact bd2

/-- **C78** If `init` reaches its end, then all solvers are in the same state, there is one for each thread, and the propagator is as described by `Resting` again: all solvers are in
states reached by calls of their functions, and the constraints of the propagator are exactly the ones in use in each solver. In particular, the theorems on single solvers apply to all threads.
The hypothesis `hi` is violated in some cases in later solve steps, see C77. -/
theorem C78_threads_partial (h0 : env.cc.level = 0) (hs : SortOk env.tc) (h : Resting T) (hi : ∀ T1, prepareInit env atoms T = .ok (true, T1) → Informed T1.master)
    (hx : propInit env atoms new T = .ok (true, T', ws)) :
    Resting T' ∧ T'.others = List.replicate (env.threads - 1) T'.master ∧ T'.marked = env.size := by
  obtain ⟨T1, T2, T3, kept, a1, r1, m1, c1, m2, i2, d1, e1, e2, e3, e4, f1, -⟩ := init_parts h0 hs h hi hx
  have m3 := m2.translate hs i2 d1
  rw [← e1, ← e2] at m3
  unfold finishInit at f1
  obtain ⟨os, g1, g2⟩ := res_bind f1
  injection g2 with g2
  subst g2
  have hl : 1 < T3.master.nextLit := by have := m3.sits.1.ti.pos; omega
  obtain ⟨l1, l2⟩ := resize_sits (n := env.threads) hl (show ∀ o ∈ T3.others, Sits o by rw [e3]; exact r1.others)
  have := copySolvers_all m3.sits g1 l2
  rw [l1] at this
  refine ⟨.of m3 (fun o ho => ?_), this, rfl⟩
  have ho : o ∈ os := ho
  rw [this] at ho
  rw [(List.mem_replicate.mp ho).2]
  exact m3.sits

/-- **C78** The literals of all constraints that remain are watched. -/
theorem C78_watched_partial (h0 : env.cc.level = 0) (hs : SortOk env.tc) (h : Resting T) (hi : ∀ T1, prepareInit env atoms T = .ok (true, T1) → Informed T1.master)
    (hx : propInit env atoms new T = .ok (true, T', ws)) {n : Nat} {c : Constr} (hc : (states T'.master)[n]? = some (c, true)) :
    c.lit ∈ ws := by
  have hr := (C78_threads_partial h0 hs h hi hx).1
  obtain ⟨T1, T2, T3, kept, a1, r1, m1, c1, m2, i2, d1, e1, e2, e3, e4, f1, rfl⟩ := init_parts h0 hs h hi hx
  unfold finishInit at f1
  obtain ⟨os, g1, g2⟩ := res_bind f1
  injection g2 with g2
  subst g2
  obtain ⟨x, k1, k2, rfl⟩ := states_get.mp hc
  unfold watchedLits
  rw [List.mem_filterMap]
  refine ⟨n, (hr.listed n).mpr ⟨_, hc⟩, ?_⟩
  have k1 : T3.master.book.cs[n]? = some x := k1
  rw [k1]
  rfl

/-- **C78** If there is an objective, then it is either represented by a constraint in all solvers, which is the only one of its kind, or it has been given to the Boolean solver. The bound of the
last solve call is forgotten in the former case. Without objective there is no such constraint. -/
theorem C78_objective_partial (h0 : env.cc.level = 0) (hs : SortOk env.tc) (h : Resting T) (hi : ∀ T1, prepareInit env atoms T = .ok (true, T1) → Informed T1.master)
    (hx : propInit env atoms new T = .ok (true, T', ws)) :
    (∀ k, T'.minimize = some k → ∃ a es, new = some (a, es) ∧ (states T'.master)[k]? = some (.minimize a es, true) ∧ T'.bound = NO_BOUND ∧ T'.master.book.translateMinimize = false) ∧
    (T'.minimize = none → new ≠ none → T'.master.book.translateMinimize = true) := by
  have hr := (C78_threads_partial h0 hs h hi hx).1
  obtain ⟨T1, T2, T3, kept, a1, r1, m1, c1, m2, i2, d1, e1, e2, e3, e4, f1, rfl⟩ := init_parts h0 hs h hi hx
  have hmain := r1.main
  rw [m1] at hmain
  obtain ⟨-, -, -, hc⟩ := addObjective_main hmain m1 c1
  have m3 := m2.translate hs i2 d1
  obtain ⟨-, -, -, hpre⟩ := C38_remaining (by rw [oldOf_map]; exact m2.once) (fun n => by rw [← m2.listed n]; simp) d1
  unfold finishInit at f1
  obtain ⟨os, g1, g2⟩ := res_bind f1
  injection g2 with g2
  subst g2
  constructor
  · intro k hk
    have hk : T3.minimize = some k := hk
    have hk2 : T2.minimize = some k ∧ T3.master.book.translateMinimize = false := by
      rw [e2] at hk
      split at hk
      · cases hk
      · rename_i hb
        exact ⟨hk, by simpa using hb⟩
    obtain ⟨a, es, hst⟩ := (hr.objective k).mp hk
    rcases hc with ⟨e, e'⟩ | ⟨a', es', n, e, hadd, hm⟩
    · have := (m2.objective k).mp hk2.1
      rw [e] at this
      have := (hmain.objective k).mpr this
      cases this
    · rw [hm] at hk2
      obtain ⟨hk2, hb⟩ := hk2
      injection hk2 with hk2
      subst hk2
      obtain ⟨s1, s2⟩ := states_add hadd
      have : ((states T2.master).map Prod.fst)[n]? = some (.minimize a' es') := by
        rw [s2, List.getElem?_map, s1, List.getElem?_append_right (le_refl _)]; simp
      have : ((states T3.master).map Prod.fst)[n]? = some (.minimize a' es') := by
        obtain ⟨tl, hp⟩ := hpre
        rw [← hp, List.getElem?_append_left (List.getElem?_eq_some_iff.mp this).1]
        exact this
      have hst' : (states T3.master)[n]? = some (.minimize a es, true) := hst
      rw [List.getElem?_map, hst'] at this
      simp only [Option.map_some, Option.some.injEq, Constr.minimize.injEq] at this
      obtain ⟨rfl, rfl⟩ := this
      refine ⟨a, es, e, hst, ?_, hb⟩
      show (if T3.minimize.isSome then NO_BOUND else T3.bound) = NO_BOUND
      rw [hk]; rfl
  · intro hm hne
    have hm : T3.minimize = none := hm
    rcases hc with ⟨-, e⟩ | ⟨a, es, n, e, hadd, hmm⟩
    · exact absurd e hne
    · rw [e2, hmm] at hm
      split at hm
      · assumption
      · cases hm

/-! ### Calls -/

theorem atoms_run : ∀ {ops : List Op} {W : World} {ns ns' : List Nat} {W' : World}, addAtoms ops W ns = .ok (true, W', ns') → Run ops W W'
  | [], W, ns, ns', W', hx => by
    injection hx with hx
    injection hx with _ hx
    obtain ⟨rfl, rfl⟩ := Prod.mk.inj hx
    exact .nil _
  | op :: ops, W, ns, ns', W', hx => by
    unfold addAtoms at hx
    split at hx
    · rename_i hb
      rw [Bool.and_eq_true] at hb
      obtain ⟨p, h1, h2⟩ := res_bind hx
      obtain ⟨r, W1⟩ := p
      cases r with
      | false => injection h2 with h2; injection h2 with h2; cases h2
      | true => exact .cons (Op.preB_iff.mp hb.2) h1 (atoms_run h2)
    · cases hx

theorem gather_run : ∀ {os : List World} {W W' : World}, gatherBounds env os W = .ok (true, W') → Run (os.map (fun o => .updateBounds env.cc o.vars env.checkState env.fuel)) W W'
  | [], W, W', hx => by
    obtain ⟨-, rfl⟩ := pure_iff.mp hx
    exact .nil _
  | o :: os, W, W', hx => by
    unfold gatherBounds at hx
    obtain ⟨b, W1, h1, h2⟩ := SM.bind_ok hx
    cases b with
    | false => cases (pure_iff.mp (show (Pure.pure false : SM Bool) W1 = .ok (true, W') from h2)).1
    | true => exact .cons (op := .updateBounds env.cc o.vars env.checkState env.fuel) trivial h1 (gather_run h2)

theorem removed_bounds {W W' : World} {n : Nat} {u : Unit} (h : removeConstraint n W = .ok (u, W')) : boundsOf W' = boundsOf W := by
  unfold Clingcon.removeConstraint at h
  obtain ⟨W1, W2, h1, h2⟩ := SM.bind_ok h
  obtain ⟨e0, e0'⟩ := get_iff.mp h1
  rw [e0, e0'] at h2
  cases hc : W.book.cs[n]? with
  | none => rw [hc] at h2; cases h2
  | some c =>
  rw [hc] at h2
  obtain ⟨_, W3, h3, h4⟩ := SM.bind_ok h2
  obtain ⟨l, W4, h5, h6⟩ := SM.bind_ok h4
  simp only [smok] at h5 h6
  obtain ⟨ls, hls, rfl⟩ := h5
  obtain ⟨_, W5, ⟨hl, rfl⟩, rfl⟩ := h6
  obtain ⟨e1, e2, e3, e4⟩ := removeVarWatches_eff h3
  simp only [boundsOf]
  rw [e1]

theorem updated_bounds {W W' : World} {k : Nat} {u : Unit} (hx : solverUpdate k W = .ok (u, W')) : boundsOf W' = boundsOf W := by
  unfold solverUpdate at hx
  simp only [smok] at hx
  obtain ⟨_, W1, rfl, W2, W3, ⟨e1, e2⟩, h4⟩ := hx
  rw [e1, e2] at h4
  have := bounds_frame (fr_updateStep.fr _ _ _ h4)
  exact this

theorem each_bounds {f : SM Unit} (hf : ∀ {W W' u}, f W = .ok (u, W') → boundsOf W' = boundsOf W) :
    ∀ {Ws Ws' : List World}, eachSolver f Ws = .ok Ws' → Ws'.map boundsOf = Ws.map boundsOf
  | [], Ws', h => by injection h with h; subst h; rfl
  | W :: Ws, Ws', h => by
    obtain ⟨p, a1, a2⟩ := res_bind h
    obtain ⟨Ws1, a3, a4⟩ := res_bind a2
    injection a4 with a4
    subst a4
    rw [List.map_cons, List.map_cons, each_bounds hf a3, hf a1]

/-- The calls made by `init` on the first solver: the old objective is removed, literals of the last step are removed, the theory atoms are added, the bounds `os` of the other solvers are
taken over, the top level is simplified, and the new objective is added. -/
def initCalls (env : InitEnv) (T : Threads) (os : List (List VarState)) (atoms : List Op) (new : Option (Int × CoVarVec)) : List Op :=
  T.minimize.toList.map .removeConstraint ++ [.update T.marked] ++ atoms ++ os.map (fun o => .updateBounds env.cc o env.checkState env.fuel) ++
    [.simplify env.cc env.trail env.checkState env.fuel] ++ new.toList.map (fun p => .addConstraint (.minimize p.1 p.2))

/-- **C78** The first solver is prepared by the calls above, for the bounds of all other solvers, followed by the calls of the translation. -/
theorem C78_calls_partial (h0 : env.cc.level = 0) (hs : SortOk env.tc) (h : Resting T) (hi : ∀ T1, prepareInit env atoms T = .ok (true, T1) → Informed T1.master)
    (hx : propInit env atoms new T = .ok (true, T', ws)) :
    ∃ os ops, os.map (List.map (fun x => (x.lower, x.upper))) = T.others.map boundsOf ∧ Run (initCalls env T os atoms new ++ ops) T.master T'.master ∧ ∀ op ∈ ops, transOp env.cc op := by
  obtain ⟨T1, T2, T3, kept, a1, r1, m1, c1, m2, i2, d1, e1, e2, e3, e4, f1, -⟩ := init_parts h0 hs h hi hx
  have hT : T'.master = T3.master := by
    unfold finishInit at f1
    obtain ⟨os, g1, g2⟩ := res_bind f1
    injection g2 with g2
    subst g2
    rfl
  rw [hT]
  obtain ⟨ct, -, -⟩ := C74_calls hs m2.sits.1 ⟨m2.sits.2, m2.quiet.1, m2.quiet.2, i2⟩
    ⟨m2.once.map (fun a b e => by injection e), fun n => by rw [← m2.listed n]; simp, fun t ht => by obtain ⟨n, -, rfl⟩ := List.mem_map.mp ht; exact ⟨n, rfl⟩⟩ d1
  obtain ⟨ops, k1, k2⟩ := ct []
  have hmain := r1.main
  rw [m1] at hmain
  have run2 : Run (new.toList.map (fun p => .addConstraint (.minimize p.1 p.2))) T1.master T2.master := by
    obtain ⟨-, -, -, hc⟩ := addObjective_main hmain m1 c1
    rcases hc with ⟨e, e'⟩ | ⟨a, es, n, e, hadd, -⟩
    · rw [e, e']; exact .nil _
    · rw [e]
      refine .cons (op := .addConstraint (.minimize a es)) (r := true) ⟨hmain.sits.2, hmain.quiet⟩ ?_ (.nil _)
      unfold Op.exec
      rw [bind_iff]
      exact ⟨(), _, discard_iff.mpr ⟨n, hadd⟩, rfl⟩
  unfold prepareInit at a1
  obtain ⟨Ta, b1, a1⟩ := res_bind a1
  have runa : Run (T.minimize.toList.map .removeConstraint) T.master Ta.master ∧ Ta.others.map boundsOf = T.others.map boundsOf ∧ Ta.marked = T.marked := by
    unfold removeObjective at b1
    cases hm : T.minimize with
    | none =>
      rw [hm] at b1
      injection b1 with b1
      subst b1
      exact ⟨.nil _, rfl, rfl⟩
    | some n =>
      rw [hm] at b1
      obtain ⟨p, h1, h2⟩ := res_bind b1
      obtain ⟨os, h3, h4⟩ := res_bind h2
      injection h4 with h4
      subst h4
      refine ⟨.cons (op := .removeConstraint n) (r := true) h.top ?_ (.nil _), each_bounds (fun h => removed_bounds h) h3, rfl⟩
      unfold Op.exec
      rw [bind_iff]
      exact ⟨p.1, _, h1, rfl⟩
  obtain ⟨Tb, b2, a1⟩ := res_bind a1
  have runb : Run [.update T.marked] Ta.master Tb.master ∧ Tb.others.map boundsOf = Ta.others.map boundsOf := by
    unfold updateSolvers at b2
    obtain ⟨p, h1, h2⟩ := res_bind b2
    obtain ⟨os, h3, h4⟩ := res_bind h2
    injection h4 with h4
    subst h4
    refine ⟨.cons (op := .update T.marked) (r := true) trivial ?_ (.nil _), each_bounds (fun h => updated_bounds h) h3⟩
    unfold Op.exec
    rw [bind_iff]
    rw [runa.2.2] at h1
    exact ⟨p.1, _, h1, rfl⟩
  obtain ⟨p, b3, a1⟩ := res_bind a1
  obtain ⟨r, W1, ns⟩ := p
  cases r with
  | false => injection a1 with a1; injection a1 with a1; cases a1
  | true =>
  obtain ⟨p, b4, a1⟩ := res_bind (show (_ >>= _ : Res (Bool × Threads)) = _ from a1)
  obtain ⟨r, W2⟩ := p
  cases r with
  | false => injection a1 with a1; injection a1 with a1; cases a1
  | true =>
  obtain ⟨p, b5, a1⟩ := res_bind (show (_ >>= _ : Res (Bool × Threads)) = _ from a1)
  obtain ⟨r, W3⟩ := p
  injection a1 with a1
  injection a1 with hr a1
  refine ⟨Tb.others.map World.vars, ops, ?_, ?_, k2⟩
  · rw [List.map_map, ← runa.2.1, ← runb.2]
    rfl
  · unfold initCalls
    have g := gather_run b4
    have g : Run ((Tb.others.map World.vars).map (fun o => Op.updateBounds env.cc o env.checkState env.fuel)) W1 W2 := by
      rw [List.map_map]
      exact g
    have hW : W3 = T1.master := by rw [← a1]
    rw [hW] at b5
    exact (((((runa.1.append runb.1).append (atoms_run b3)).append g).append (.cons (op := .simplify env.cc env.trail env.checkState env.fuel) h0 b5 (.nil _))).append run2).append (Fed.run k1)

/-! ### Several solve calls -/

/-- **C78** In the beginning, there is a single solver without variables and constraints. -/
theorem C78_start {n : Int} (hn : 1 < n) : Resting { master := World.init n, others := [] } where
  reach := ⟨n, [], hn, .nil _⟩
  top := rfl
  quiet := ⟨rfl, rfl⟩
  idle := fun n h => by cases h
  others := fun o h => by cases h
  once := List.nodup_nil
  listed := fun n => ⟨fun h => (by cases h), fun ⟨c, h⟩ => by cases h⟩
  objective := fun n => ⟨fun h => (by cases h), fun ⟨a, es, h⟩ => by cases h⟩

/-- Calls that neither add nor remove constraints. -/
def searchOp : Op → Prop
  | .addConstraint _ => False
  | .removeConstraint _ => False
  | .removeConstraints _ => False
  | _ => True

theorem search_states {W W' : World} {ops : List Op} (h : Run ops W W') : (∀ op ∈ ops, searchOp op) → IA W.book → states W' = states W ∧ IA W'.book := by
  induction h with
  | nil => exact fun _ h => ⟨rfl, h⟩
  | @cons op ops W W1 W2 r hp hx hrest ih =>
    intro ho hi
    have h0 := ho op List.mem_cons_self
    have n1 : ∀ n, op ≠ .removeConstraint n := fun n e => by rw [e] at h0; exact h0
    obtain ⟨add, e1, -, -, e2⟩ := acon_step ⟨n1, fun n e => by rw [e] at h0; exact h0⟩ hx hi
    rw [e2 (fun n e => by rw [e] at h0; exact h0), List.append_nil] at e1
    obtain ⟨i1, i2⟩ := ih (fun o h => ho o (List.mem_cons_of_mem _ h)) (ia_step (fun n e => absurd e (n1 n)) hx hi)
    exact ⟨i1.trans (states_of_acon e1), i2⟩

theorem reach_run {W W' : World} {ops : List Op} (h : Run ops W W') (hr : Reach W) : Reach W' := by
  obtain ⟨n, ops', hn, h'⟩ := hr
  exact ⟨n, ops' ++ ops, hn, h'.append h⟩

/-- **C78** During the search, arbitrary calls that neither add nor remove constraints are made in all threads. If the search is undone and no changes are pending in the first solver, then
the propagator is again as described by `Resting`, so that `init` can be called for the next step. -/
theorem C78_search {m : World} {ops : List Op} {os : List World} (h : Resting T) (hm : Run ops T.master m) (hs : ∀ op ∈ ops, searchOp op) (ht : m.book.levels.length = 1) (hq : m.noChanges)
    (ho : ∀ o ∈ os, ∃ o' ∈ T.others, ∃ ops, Run ops o' o ∧ o.book.levels.length = 1) : Resting { T with master := m, others := os } := by
  obtain ⟨s1, s2⟩ := search_states hm hs (ia_iff.mpr h.idle)
  refine .of (h.main.same ⟨reach_run hm h.reach, ht⟩ hq s2 s1) (fun o hh => ?_)
  obtain ⟨o', h1, ops', h2, h3⟩ := ho o hh
  exact ⟨reach_run h2 (h.others o' h1).1, h3⟩

/-! ### A concrete case -/

/-- Two threads; the limits are such that no constraint is translated. -/
def initEnv : InitEnv :=
  { cc := idle, tc := { toWeights with ratioOk := fun _ _ => false, clauseLimit := 1, distinctLimit := 1, translateMinimize := 0 }, trail := fun _ => [], fuel := 9, steps := 9, threads := 2, size := 8 }

/-- There are `x` in `[0, 3]` and `y` in `[0, 2]`, the constraint `2x - y ≤ 3` with literal 5 and one that `x` and `y` differ. -/
def initAtoms : List Op := [.addVar 0 3, .addVar 0 2, .addConstraint (.sum 5 3 [(2, 0), (-1, 1)]), .addConstraint (.distinct 1 [([(1, 0)], 0), ([(1, 1)], 0)])]

def initStart : Threads := { master := World.init 8, others := [] }

def initResult (env : InitEnv) (atoms : List Op) (new : Option (Int × CoVarVec)) (T : Threads) : Threads :=
  match propInit env atoms new T with | .ok (true, T', _) => T' | _ => T

/-- The first step: minimize `x + y`. -/
def initFirst : Threads := initResult initEnv initAtoms (some (0, [(1, 0), (1, 1)])) initStart

/-- The other thread finds out that `x ≤ 2` holds. -/
def initFound : Threads := { initFirst with others := initFirst.others.map (fun o => (tryRun [.simple idle 1 1 0 2 false, .simplify idle (fun _ => []) true 9] o).getD o) }

/-- The second step: the objective is dropped and the constraint `x + y ≤ 2` is added. -/
def initSecond : Threads := initResult { initEnv with threads := 3 } [.addConstraint (.sum 6 2 [(1, 0), (1, 1)])] none initFound

def nonzeroB : Constr → Bool
  | .sum lit _ es => lit != 0 && es.all (fun e => e.1 != 0)
  | .distinct _ es => es.all (fun e => e.1.all (fun x => x.1 != 0))
  | _ => true

def informedB (W : World) : Bool := W.book.cs.all (fun c => !c.alive || (nonzeroB c.con && (match c.con with | .distinct .. => c.dirty.isEmpty | _ => true)))

theorem informedB_ok {W : World} (h : informedB W = true) : Informed W := by
  intro n c hc ha
  have := List.all_eq_true.mp h c (List.mem_of_getElem? hc)
  rw [ha] at this
  simp only [Bool.not_true, Bool.false_or, Bool.and_eq_true] at this
  refine ⟨?_, fun lit es e => ?_⟩
  · have h1 := this.1
    cases hk : c.con with
    | sum lit r es => rw [hk] at h1; simpa [nonzeroB, Nonzero] using h1
    | distinct lit es => rw [hk] at h1; simpa [nonzeroB, Nonzero] using h1
    | _ => trivial
  · have h2 := this.2
    rw [e] at h2
    simpa using h2

theorem initResult_ok {T0 : Threads} (h : (match propInit env atoms new T0 with | .ok (b, _) => b | .error _ => false) = true) :
    ∃ ws, propInit env atoms new T0 = .ok (true, initResult env atoms new T0, ws) := by
  unfold initResult
  generalize propInit env atoms new T0 = x at h
  cases x with
  | error e => cases h
  | ok p =>
    obtain ⟨b, T1, ws⟩ := p
    cases b with
    | false => cases h
    | true => exact ⟨ws, rfl⟩

theorem prepared_informed {T0 : Threads} (h : (match prepareInit env atoms T0 with | .ok (true, T1) => informedB T1.master | _ => true) = true) :
    ∀ T1, prepareInit env atoms T0 = .ok (true, T1) → Informed T1.master := by
  intro T1 e
  rw [e] at h
  exact informedB_ok h

theorem initFirst_rests : Resting initFirst ∧ initFirst.others = [initFirst.master] := by
  obtain ⟨ws, h⟩ := initResult_ok (env := initEnv) (atoms := initAtoms) (new := some (0, [(1, 0), (1, 1)])) (T0 := initStart) (by decide +kernel)
  obtain ⟨a, b, -⟩ := C78_threads_partial rfl (fun _ => .refl _) (C78_start (by decide)) (prepared_informed (by decide +kernel)) h
  exact ⟨a, b⟩

theorem initFound_rests : Resting initFound := by
  refine C78_search (ops := []) initFirst_rests.1 (.nil _) (fun op h => by cases h) initFirst_rests.1.top initFirst_rests.1.quiet (fun o ho => ?_)
  rw [initFirst_rests.2] at ho ⊢
  refine ⟨_, List.mem_singleton.mpr rfl, [.simple idle 1 1 0 2 false, .simplify idle (fun _ => []) true 9], ?_⟩
  rw [List.mem_singleton.mp ho]
  exact ⟨tryRun_getD (by decide +kernel), by decide +kernel⟩

/-- The hypotheses are met in both steps. The bound found by the other thread is taken over, the objective is removed, and the third thread is prepared, too. -/
example : Resting initSecond ∧ initSecond.others = [initSecond.master, initSecond.master] ∧ boundsOf initFirst.master = [(0, 3), (0, 2)] ∧ initFirst.minimize = some 2 ∧
    boundsOf initSecond.master = [(0, 2), (0, 2)] ∧ initSecond.constraints = [0, 1, 3] ∧ initSecond.minimize = none := by
  obtain ⟨ws, h⟩ := initResult_ok (env := { initEnv with threads := 3 }) (atoms := [.addConstraint (.sum 6 2 [(1, 0), (1, 1)])]) (new := none) (T0 := initFound) (by decide +kernel)
  obtain ⟨a, b, -⟩ := C78_threads_partial rfl (fun _ => .refl _) initFound_rests (prepared_informed (by decide +kernel)) h
  exact ⟨a, b, by decide +kernel, by decide +kernel, by decide +kernel, by decide +kernel, by decide +kernel⟩

end Clingcon.Props
