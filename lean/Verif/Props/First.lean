import Verif.Props.Init
import Verif.Props.TranslateCase

/-! Property C79: answers of the first solve step, from the program to the search in all threads. -/
set_option linter.unusedSimpArgs false
set_option linter.unusedVariables false
namespace Clingcon.Props
open Clingcon Clingcon.Spec

variable {T' T1 : Threads} {ienv : InitEnv} {atoms : List Op} {obj : Option (Int × CoVarVec)} {ws : List Lit} {β : Nat → Bool} {W W' : World}

/-- The propagator before the first solve step; `n` is the next free literal. -/
def fresh (n : Int) : Threads := { master := World.init n, others := [] }

theorem built_one {op : Op} {r : Bool} {W W' : World} (hb : op.built = true) (h1 : Sits W) :
    feedPre [Told.none] W op ∧ toldAfter op W W' r [Told.none] = [Told.none] := by
  have hl : W.level = 0 := h1.1.wi.level_top h1.2
  cases op <;> first | (cases hb; done) | exact ⟨trivial, rfl⟩ | skip
  · exact ⟨⟨h1.2, fun t ht l hl => by rw [List.mem_singleton.mp ht] at hl; exact hl.elim⟩, rfl⟩
  · exact ⟨by show W.level ≤ _; omega, rfl⟩

/-- What is added is of the form the parser ensures, it is added on the top level, and what the Boolean solver assigns then agrees with the assignment. -/
def Proper (β : Nat → Bool) (atoms : List Op) : Prop := ∀ op ∈ atoms, okOp true op ∧ ∀ cc, opEnv op = some cc → EnvSound cc β

theorem atoms_ok : ∀ {ops : List Op} {W : World} {ns ns' : List Nat} {W' : World}, Proper β ops → Sits W → addAtoms ops W ns = .ok (true, W', ns') →
    OkFed β ops W [Told.none] W' [Told.none] ∧ NoRemoval ops
  | [], W, ns, ns', W', _, _, hx => by
    injection hx with hx
    injection hx with _ hx
    obtain ⟨rfl, rfl⟩ := Prod.mk.inj hx
    exact ⟨.nil _ _, fun op h => by cases h⟩
  | op :: ops, W, ns, ns', W', ha, hs, hx => by
    unfold addAtoms at hx
    split at hx
    · rename_i hb
      rw [Bool.and_eq_true] at hb
      obtain ⟨p, h1, h2⟩ := res_bind hx
      obtain ⟨r, W1⟩ := p
      cases r with
      | false => injection h2 with h2; injection h2 with h2; cases h2
      | true =>
        have hp := Op.preB_iff.mp hb.2
        obtain ⟨f1, f2⟩ := built_one (r := true) (W' := W1) hb.1 hs
        obtain ⟨o1, o2⟩ := ha op List.mem_cons_self
        obtain ⟨i1, i2⟩ := atoms_ok (fun o ho => ha o (List.mem_cons_of_mem _ ho)) (hs.step hp h1 (by rintro cc ls rfl; cases hb.1) (by rintro rfl; cases hb.1)) h2
        refine ⟨.cons hp f1 o2 o1 h1 (by rw [f2]; exact i1), fun o ho => ?_⟩
        rcases List.mem_cons.mp ho with rfl | ho
        · exact ⟨(by rintro n rfl; cases hb.1), (by rintro n rfl; cases hb.1)⟩
        · exact i2 o ho
    · cases hx

/-- The calls before the translation in the first solve step. -/
def firstCalls (ienv : InitEnv) (atoms : List Op) (obj : Option (Int × CoVarVec)) : List Op :=
  atoms ++ (.simplify ienv.cc ienv.trail ienv.checkState ienv.fuel :: obj.toList.map (fun p => .addConstraint (.minimize p.1 p.2)))

/-- **C79** In the first solve step, the search of each thread starts in a state that is obtained by adding the program, simplifying, adding the objective, and translating. All theorems on such states apply to
each thread, in particular those on answers (C74). -/
theorem C79_phases_partial {n : Int} (hn : 1 < n) (h0 : ienv.cc.level = 0) (hs : SortOk ienv.tc) (he : EnvSound ienv.cc β) (ha : Proper β atoms)
    (hi : ∀ T1, prepareInit ienv atoms (fresh n) = .ok (true, T1) → Informed T1.master) (hx : propInit ienv atoms obj (fresh n) = .ok (true, T', ws)) (hl : T'.master.vars.length ≤ INVALID_VAR) :
    ∃ W0, ∀ S ∈ T'.master :: T'.others, ∀ ops W ts, OkFed β ops S [Told.none] W ts → NoRemoval ops →
      Phases β ienv.cc ienv.tc n (firstCalls ienv atoms obj) W0 [Told.none] S ops W ts := by
  have hrest := C78_start hn
  obtain ⟨-, same, -⟩ := C78_threads_partial h0 hs hrest hi hx
  obtain ⟨T1, T2, T3, kept, a1, r1, m1, c1, m2, i2, d1, e1, e2, e3, e4, f1, -⟩ := init_parts h0 hs hrest hi hx
  have hT : T'.master = T3.master := by
    unfold finishInit at f1
    obtain ⟨os, g1, g2⟩ := res_bind f1
    injection g2 with g2
    subst g2
    rfl
  have hmain := r1.main
  rw [m1] at hmain
  have run2 : OkFed β (obj.toList.map (fun p => .addConstraint (.minimize p.1 p.2))) T1.master [Told.none] T2.master [Told.none] := by
    obtain ⟨-, -, -, hc⟩ := addObjective_main hmain m1 c1
    rcases hc with ⟨e, e'⟩ | ⟨a, es, n, e, hadd, -⟩
    · rw [e, e']; exact .nil _ _
    · rw [e]
      refine .cons (op := .addConstraint (.minimize a es)) (r := true) ⟨hmain.sits.2, hmain.quiet⟩ trivial (fun cc h => by cases h) trivial ?_ (.nil _ _)
      unfold Op.exec
      rw [bind_iff]
      exact ⟨(), _, discard_iff.mpr ⟨n, hadd⟩, rfl⟩
  have setup : OkFed β (firstCalls ienv atoms obj) (World.init n) [Told.none] T2.master [Told.none] ∧ NoRemoval atoms := by
    unfold prepareInit at a1
    obtain ⟨Ta, b1, a1⟩ := res_bind a1
    injection b1 with b1
    subst b1
    obtain ⟨Tb, b2, a1⟩ := res_bind a1
    injection b2 with b2
    subst b2
    obtain ⟨p, b3, a1⟩ := res_bind a1
    obtain ⟨r, W1, ns⟩ := p
    cases r with
    | false => injection a1 with a1; injection a1 with a1; cases a1
    | true =>
    obtain ⟨p, b4, a1⟩ := res_bind (show (_ >>= _ : Res (Bool × Threads)) = _ from a1)
    injection b4 with b4
    subst b4
    obtain ⟨p, b5, a1⟩ := res_bind (show (_ >>= _ : Res (Bool × Threads)) = _ from a1)
    obtain ⟨r, W3⟩ := p
    injection a1 with a1
    injection a1 with hr a1
    have hW : W3 = T1.master := by rw [← a1]
    rw [hW] at b5
    obtain ⟨k1, k2⟩ := atoms_ok ha (init_sits hn) b3
    have s1 : Sits W1 := by
      have := (hrest.main.atoms b3).sits
      exact this
    refine ⟨okFed_trans k1 (.cons (op := .simplify ienv.cc ienv.trail ienv.checkState ienv.fuel) h0 ?_ (fun cc h => by injection h with h; rw [← h]; exact he) trivial b5 run2), k2⟩
    show W1.level ≤ _
    have := s1.1.wi.level_top s1.2
    omega
  refine ⟨T2.master, fun S hS ops W ts hops hrem => ?_⟩
  have hS' : S = T3.master := by
    rw [← hT]
    rcases List.mem_cons.mp hS with h | h
    · exact h
    · rw [same] at h
      exact (List.mem_replicate.mp h).2
  subst hS'
  refine ⟨setup.1, ⟨m2.sits.2, m2.quiet.1, m2.quiet.2, i2⟩, ⟨_, _, _, _, ⟨m2.once.map (fun a b e => by injection e), fun n => by rw [← m2.listed n]; simp, fun t ht => by
    obtain ⟨n, -, rfl⟩ := List.mem_map.mp ht; exact ⟨n, rfl⟩⟩, d1⟩, by rw [← hT]; exact hl, hops, fun op ho => ?_, hrem⟩
  rcases List.mem_append.mp ho with ho | ho
  · exact setup.2 op ho
  · rcases List.mem_cons.mp ho with rfl | ho
    · exact ⟨(fun _ e => by cases e), (fun _ e => by cases e)⟩
    · obtain ⟨p, -, rfl⟩ := List.mem_map.mp ho
      exact ⟨(fun _ e => by cases e), (fun _ e => by cases e)⟩

theorem passedOn_more {ops ops' : List Op} {e : PEv} (hsub : ∀ op ∈ ops, op ∈ ops') (h : passedOn ops e) : passedOn ops' e := by
  cases e with
  | clause c => trivial
  | simple l co v r s => obtain ⟨cc, h⟩ := h; exact ⟨cc, hsub _ h⟩
  | dom l v d => obtain ⟨cc, h⟩ := h; exact ⟨cc, hsub _ h⟩
  | con c => exact hsub _ h

section
variable (pow : Int → Int → Res Int) (hpow : ∀ x y z, pow x y = .ok z → -2 ^ 31 ≤ z ∧ z ≤ 2 ^ 31 - 1)
variable (env : BEnv) (penv : PEnv) (Base : (Nat → Bool) → Prop) (as : List TheoryAtom) (s s' : BState) (p p' : PState) (evs : List Event) (bb bb' : Bool)

include hpow in
/-- **C79** (partial as `C74_answers_partial` and `C78_threads_partial`.) Let the theory atoms of a program be parsed and passed on to the solver by `init`, for any number of threads, any configuration of the translation, and any
objective. If a total assignment found by the search of any of the threads, which satisfies what has been posted, is accepted by the final check of this thread, then every theory atom of the program has its meaning for the reported values. -/
theorem C79_answers_partial {new : List PEv} (hld : Loaded pow env penv as s s' p p' evs bb bb' new)
    (ho : Oracle env (lowerOf W) s.log s.nextLit Base) (hp : POracle penv (lowerOf W) p.log s.nextLit Base) (hb : Base β)
    -- everything is passed on
    (hpass : ∀ e ∈ new, passedOn atoms e) (hcl : ∀ c, PEv.clause c ∈ new → ∃ l ∈ c, litTrue β l)
    -- the solvers are prepared
    (h0 : ienv.cc.level = 0) (hs : SortOk ienv.tc) (he : EnvSound ienv.cc β) (ha : Proper β atoms)
    (hi : ∀ T1, prepareInit ienv atoms (fresh p'.nextLit) = .ok (true, T1) → Informed T1.master) (hx : propInit ienv atoms obj (fresh p'.nextLit) = .ok (true, T', ws))
    (hl : T'.master.vars.length ≤ INVALID_VAR)
    -- one of the threads finds an assignment
    {S : World} (hS : S ∈ T'.master :: T'.others) {ops : List Op} {t : Told} {ts : List Told} (hops : OkFed β ops S [Told.none] W (t :: ts)) (hrem : NoRemoval ops)
    -- the assignment is total and the final check succeeds
    {ce : CC} (hf : W.factmap = []) (hps : Passed β W t) (hal : AllHold β W.log) (hir : InRange W) (htot : ∀ k ∈ W.book.cs, k.alive = true → litTrue β k.con.lit → ce.isTrue W.log k.con.lit = true)
    (hc : solverCheckFull ce true W = .ok ((), W')) (hlog : W'.log = W.log)
    -- the reported values
    {τ : Sym → Int} (hτ : ∀ q ∈ s'.symMap, W.getValue q.2 = some (τ q.1)) :
    ∀ a ∈ as, atomHolds pow τ β (env.solverLit a.lit) a := by
  have hag : Agree τ (lowerOf W) s' := by
    intro q hq
    have := hτ q hq
    unfold World.getValue at this
    cases hv : W.vars[q.2]? with
    | none => rw [hv] at this; cases this
    | some vs =>
      rw [hv] at this
      have e : lowerOf W q.2 = vs.lower := by simp [lowerOf, boundsOf, hv]
      rw [e]
      simpa using this
  obtain ⟨-, hcap⟩ := Loaded.captures pow hpow env penv Base as s s' p p' evs bb bb' hld (σ := τ) ho hp hag
  have hn : 1 < p'.nextLit := lt_of_lt_of_le ho.pos hcap.mono
  obtain ⟨W0, hph⟩ := C79_phases_partial hn h0 hs he ha hi hx hl
  exact C74_answers_partial pow hpow env penv Base as s s' p p' evs bb bb' hld ho hp hb (fun e he => passedOn_more (fun op h => List.mem_append_left _ h) (hpass e he)) hcl he h0 hs
    (hph S hS ops W (t :: ts) hops hrem) hf hps hal hir htot hc hlog hτ

end

/-! ### A concrete case -/

/-- Two threads; the constraint `x + y ≤ 1` of the program `ansProgram` is translated to a weight constraint. -/
def firstEnv : InitEnv := { cc := idle, tc := toWeights, trail := fun _ => [], checkState := false, fuel := 100, steps := 100, threads := 2, size := 8 }

def firstAtoms : List Op := [.addVar 0 1, .addVar 0 3, .simple idle 2 1 0 0 true, .dom idle 3 1 [(1, 2)], .simple idle 1 1 1 2 false, .addConstraint (.sum 3 1 [(1, 0), (1, 1)])]

def firstT : Threads := initResult firstEnv firstAtoms none (fresh 4)

/-- The search of one of the threads. -/
def fr8 := after (.propagate okAll [2, 4, -5]) firstT.master
def fr9 := after (.check okAll false 9) fr8

theorem first_proper : Proper okβ firstAtoms := by
  have i1 : EnvSound idle okβ := idle_sound (by decide)
  intro op hop
  simp only [firstAtoms, List.mem_cons, List.not_mem_nil, or_false] at hop
  rcases hop with rfl | rfl | rfl | rfl | rfl | rfl
  · exact ⟨trivial, fun cc h => by cases h⟩
  · exact ⟨trivial, fun cc h => by cases h⟩
  · exact ⟨⟨rfl, rfl, by decide⟩, fun cc h => by cases h; exact i1⟩
  · exact ⟨⟨rfl, rfl, by decide, ⟨by decide, by decide⟩, by decide⟩, fun cc h => by cases h; exact i1⟩
  · exact ⟨⟨rfl, rfl, by decide⟩, fun cc h => by cases h; exact i1⟩
  · exact ⟨trivial, fun cc h => by cases h⟩

theorem first_search : OkFed okβ twSearch firstT.master [Told.none] fr9 [okTold, Told.none] := by
  have s1 : ∀ cc, some okAll = some cc → EnvSound cc okβ := fun cc e => by cases e; exact assigns_sound (by decide) (by decide)
  refine .cons (Op.preB_iff.mp (by decide +kernel)) ?_ s1 trivial (after_eq (r := true) (by decide +kernel)) ?_
  · show _ ≤ _ ∧ _
    decide +kernel
  have e1 : toldAfter (.propagate okAll [2, 4, -5]) firstT.master fr8 true [Told.none] = [okTold, Told.none] := by
    have : firstT.master.book.levels.length < fr8.book.levels.length := by decide +kernel
    simp only [toldAfter, if_pos this, okTold]
  show OkFed _ _ fr8 (toldAfter (.propagate okAll [2, 4, -5]) firstT.master fr8 true [Told.none]) _ _
  rw [e1]
  refine .cons (Op.preB_iff.mp (by decide +kernel)) ?_ s1 trivial (after_eq (r := true) (by decide +kernel)) (.nil _ _)
  show _ ≤ _
  decide +kernel

theorem first_passed : Passed okβ fr9 okTold := by
  have hv : fr9.vars.map (·.with) = [[(0, 2)], [(0, -4), (1, -5)]] := by decide +kernel
  rintro v k l ⟨vs, h1, h2⟩
  have : vs.with ∈ fr9.vars.map (·.with) := List.mem_map_of_mem (List.mem_of_getElem? h1)
  rw [hv] at this
  simp only [List.mem_cons, List.not_mem_nil, or_false] at this
  rcases this with this | this
  all_goals
    rw [this] at h2
    simp only [List.mem_cons, Prod.mk.injEq, List.not_mem_nil, or_false] at h2
  · obtain ⟨rfl, rfl⟩ := h2
    exact ⟨fun _ => Or.inr ⟨rfl, by simp⟩, fun h => by simp [litTrue, okβ] at h⟩
  · rcases h2 with ⟨rfl, rfl⟩ | ⟨rfl, rfl⟩
    · exact ⟨fun h => by simp [litTrue, okβ] at h, fun _ => Or.inr ⟨rfl, by simp⟩⟩
    · exact ⟨fun _ => Or.inr ⟨rfl, by simp⟩, fun h => by simp [litTrue, okβ] at h⟩

theorem first_range : InRange fr9 := by
  have e : boundsOf fr9 = [(0, 0), (1, 1)] := by decide +kernel
  intro v
  unfold lowerOf upperOf
  rw [e]
  match v with
  | 0 => exact ⟨by decide, by decide⟩
  | 1 => exact ⟨by decide, by decide⟩
  | _ + 2 => constructor <;> (simp only [List.getElem?_cons_succ, List.getElem?_nil, Option.elim_none]; decide)

theorem all_copies {l : List World} {n : Nat} {m : World} {P : World → Prop} (h : l = List.replicate n m) (hp : m ∈ m :: l → P m) :
    l.length = n ∧ ∀ S ∈ l, P S := by
  subst h
  refine ⟨List.length_replicate .., fun S hS => ?_⟩
  rw [(List.mem_replicate.mp hS).2]
  exact hp List.mem_cons_self

/-- The hypotheses of `C79_answers_partial` are met: the second thread reports the values `x = 0` and `y = 1`. -/
example : firstT.constraints = [] ∧ firstT.others.length = 1 ∧ ∀ S ∈ firstT.others, OkFed okβ twSearch S [Told.none] fr9 [okTold, Told.none] ∧
    ∀ a ∈ ansProgram, atomHolds noPow ansSyms okβ (exEnv.solverLit a.lit) a := by
  obtain ⟨ws, hx⟩ := initResult_ok (env := firstEnv) (atoms := firstAtoms) (new := none) (T0 := fresh 4) (by decide +kernel)
  have hx : propInit firstEnv firstAtoms none (fresh 4) = .ok (true, firstT, ws) := hx
  have hi := prepared_informed (env := firstEnv) (atoms := firstAtoms) (T0 := fresh 4) (by decide +kernel)
  obtain ⟨-, hsame, -⟩ := C78_threads_partial rfl (fun l => List.Perm.refl l) (C78_start (by decide)) hi hx
  have hun : ∀ k ∈ fr9.book.cs, k.alive = false := by decide +kernel
  have hlog : (solverCheckFull okAll true fr9).toOption.map (fun p => p.2.log) = some fr9.log := by decide +kernel
  obtain ⟨W', hc, hl⟩ : ∃ W', solverCheckFull okAll true fr9 = .ok ((), W') ∧ W'.log = fr9.log := by
    cases hx : solverCheckFull okAll true fr9 with
    | error e => rw [hx] at hlog; cases hlog
    | ok p =>
      rw [hx] at hlog
      simp only [Except.toOption, Option.map_some, Option.some.injEq] at hlog
      exact ⟨p.2, rfl, hlog⟩
  refine ⟨by decide +kernel, all_copies hsame fun hS => ⟨first_search, ?_⟩⟩
  refine C79_answers_partial noPow (by intro x y z h; cases h) exEnv plainEnv (fun β => β 1 = true) ansProgram ansStart ansEnd ⟨4, []⟩ ⟨4, ansPosts⟩ ansEvs true true ans_loaded
    (ans_oracle _) (ans_poracle _) (by decide) ?_ ?_ rfl (fun l => List.Perm.refl l) (idle_sound (by decide)) first_proper hi hx (by decide +kernel) hS first_search tw_noRemoval.2
    (by decide +kernel) first_passed (allHold_of (by decide +kernel)) first_range (fun k hk h => by rw [hun k hk] at h; cases h) hc hl ?_
  · intro e he
    simp only [ansPosts, List.mem_cons, List.not_mem_nil, or_false] at he
    rcases he with rfl | rfl | rfl | rfl
    · exact ⟨idle, by simp [firstAtoms]⟩
    · exact ⟨idle, by simp [firstAtoms]⟩
    · exact ⟨idle, by simp [firstAtoms]⟩
    · show Op.addConstraint _ ∈ firstAtoms
      simp [firstAtoms]
  · intro c hc
    simp [ansPosts] at hc
  · intro q hq
    simp only [ansEnd, List.mem_cons, List.not_mem_nil, or_false] at hq
    rcases hq with rfl | rfl <;> decide +kernel

end Clingcon.Props
