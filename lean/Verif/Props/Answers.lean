import Verif.Proof.Answers
import Verif.Props.Handed
import Verif.Props.Enforced
import Verif.Props.FedSound

/-! C72: answers are solutions of the program, and no solution of the program is lost. -/
set_option linter.unusedVariables false
namespace Clingcon.Props
open Clingcon Spec

section
variable (pow : Int → Int → Res Int) (hpow : ∀ x y z, pow x y = .ok z → -2 ^ 31 ≤ z ∧ z ≤ 2 ^ 31 - 1)
variable (env : BEnv) (penv : PEnv) (Base : (Nat → Bool) → Prop) (as : List TheoryAtom) (s s' : BState) (p p' : PState) (evs : List Event) (b b' : Bool)

/-- A program is parsed, and the calls of the parser are handed to the constraint builder. Nonlinear sums with several products and strict ones with a
product are left out, see `C10_product_lost` and `C11_negation`. -/
structure Loaded (new : List PEv) : Prop where
  wf : s.WF
  lits : ∀ a ∈ as, env.solverLit a.lit ≠ 0 ∧ |env.solverLit a.lit| < s.nextLit
  products : ∀ a ∈ as, OneProduct pow a
  parsed : parseProgram pow env as s = .ok (b, s')
  vars : s'.numVars ≤ 2 ^ 32 - 1
  calls : s'.log = s.log ++ evs
  strict : NoStrictProduct evs
  next : p.nextLit = s'.nextLit
  handed : bEvents penv evs p = .ok (b', p')
  posts : p'.log = p.log ++ new

include hpow in
theorem Loaded.captures {new : List PEv} (h : Loaded pow env penv as s s' p p' evs b b' new) {σ : Sym → Int} {τ : Nat → Int} (ho : Oracle env τ s.log s.nextLit Base)
    (hp : POracle penv τ p.log s.nextLit Base) (ha : Agree σ τ s') : (∀ e ∈ new, properP p'.nextLit e) ∧
      PCaptures τ Base s.nextLit p'.nextLit new (b && b') (fun β => ∀ a ∈ as, atomHolds pow σ β (env.solverLit a.lit) a) := by
  obtain ⟨new', e, h1, h2⟩ := C71_program_partial pow hpow env penv σ τ Base as s s' p p' evs b b' h.wf ho hp h.lits h.products h.parsed h.vars ha h.calls h.strict h.next h.handed
  obtain rfl : new' = new := List.append_cancel_left (e.symm.trans h.posts)
  exact ⟨h1, h2⟩

include hpow in
/-- **C72** (partial: see `Loaded` for the programs that are left out because the code is wrong for them.) Answers are solutions of the program. A program is parsed, the calls of the parser are
turned into clauses and calls of the solver, and these calls are passed on to the solver during any sequence of calls in which
none of them is rejected. If then a total assignment that satisfies the clauses is accepted by the final check, every theory atom of the
program has its meaning for the reported values: strict atoms are true exactly if their constraints hold, and the constraints of all other atoms that are true hold. -/
theorem C72_answers_partial {new : List PEv} (hld : Loaded pow env penv as s s' p p' evs b b' new)
    {β : Nat → Bool} {ops : List Op} {W W' : World} {t : Told} {ts : List Told} {cc : CC}
    (ho : Oracle env (lowerOf W) s.log s.nextLit Base) (hp : POracle penv (lowerOf W) p.log s.nextLit Base) (hb : Base β)
    -- everything is passed on and nothing is removed
    (hpass : ∀ e ∈ new, passedOn ops e) (hcl : ∀ c, PEv.clause c ∈ new → ∃ l ∈ c, litTrue β l) (hrem : NoRemoval ops)
    (hrun : OkFed β ops (World.init p'.nextLit) [Told.none] W (t :: ts))
    -- the assignment is total and the final check succeeds
    (hfm : W.factmap = []) (hps : Passed β W t) (hal : AllHold β W.log) (hir : InRange W) (htot : ∀ l, litOk p'.nextLit l → litTrue β l → cc.isTrue W.log l = true)
    (hx : solverCheckFull cc true W = .ok ((), W')) (hlog : W'.log = W.log)
    -- the reported values
    {σ : Sym → Int} (hσ : ∀ q ∈ s'.symMap, W.getValue q.2 = some (σ q.1)) :
    ∀ a ∈ as, atomHolds pow σ β (env.solverLit a.lit) a := by
  have ha : Agree σ (lowerOf W) s' := by
    intro q hq
    have := hσ q hq
    unfold World.getValue at this
    cases hv : W.vars[q.2]? with
    | none => rw [hv] at this; cases this
    | some vs =>
      rw [hv] at this
      have e : lowerOf W q.2 = vs.lower := by simp [lowerOf, boundsOf, hv]
      rw [e]
      simpa using this
  obtain ⟨hpr, hcap⟩ := Loaded.captures pow hpow env penv Base as s s' p p' evs b b' hld (σ := σ) ho hp ha
  have hn : 1 < p'.nextLit := lt_of_lt_of_le ho.pos hcap.mono
  obtain ⟨-, -, h3, h4⟩ := C64_solution (u := ()) hn hrun hfm hps hal hir hx hlog
  refine hcap.complete β hb fun e he => ?_
  have hpe := hpass e he
  have hw := hpr e he
  cases e with
  | clause c => exact hcl c he
  | simple l co v r st =>
    obtain ⟨c0, hm⟩ := hpe
    obtain ⟨_, hh⟩ := holdsAll_mem h3 _ hm
    exact hh
  | dom l v d =>
    obtain ⟨c0, hm⟩ := hpe
    obtain ⟨_, hh⟩ := holdsAll_mem h3 _ hm
    exact hh
  | con c =>
    intro hl
    obtain ⟨-, h5⟩ := added_stays hrun hrem (fun n hn => by cases hn)
    obtain ⟨n, k, g1, g2, g3⟩ := h5 c hpe
    have hl0 : litOk p'.nextLit c.lit := by
      cases c with
      | minimize a es => exact hw.elim
      | _ => exact hw.1
    have := h4 n k g1 g2 (by rw [g3]; exact htot _ hl0 hl)
    rw [g3] at this
    exact (conHolds_bound hw _ _ _).mp this

include hpow in
/-- **C72** (partial: see `Loaded` and `fromPosts` for the cases that are left out because the code is wrong for them.) No solution of the program is lost. Let a truth assignment to the literals of the program and an
assignment to the symbols be given such that all theory atoms have their meaning. Then there is an extension to the auxiliary literals such that over any sequence of calls
that only add what the constraint builder has passed on, with any interleaving of decisions, propagation and undoing, everything posted to the Boolean
solver holds in the assignment (extended to order literals according to their meaning); in particular, no conflict on the top level is reported. -/
theorem C72_kept_partial {new : List PEv} (hld : Loaded pow env penv as s s' p p' evs b b' new) {σ : Sym → Int} {τ : Nat → Int} (ha : Agree σ τ s')
    (ho : Oracle env τ s.log s.nextLit Base) (hp : POracle penv τ p.log s.nextLit Base)
    {β : Nat → Bool} (hb : Base β) (hsol : ∀ a ∈ as, atomHolds pow σ β (env.solverLit a.lit) a) :
    (b && b') = true ∧ ∃ β', agreeBelow s.nextLit β β' ∧ (∀ c, PEv.clause c ∈ new → ∃ l ∈ c, litTrue β' l) ∧
      ∀ β'' ops W ts, agreeBelow p'.nextLit β' β'' → PostFed new β'' τ ops (World.init p'.nextLit) [Told.none] W ts → Respects β'' τ W.log →
        AllHold β'' W.log ∧ SEv.clause [] ∉ W.log ∧ (W.book.levels.length = 1 → ∀ v, v < W.vars.length → lowerOf W v ≤ τ v ∧ τ v ≤ upperOf W v) := by
  obtain ⟨hpr, hcap⟩ := Loaded.captures pow hpow env penv Base as s s' p p' evs b b' hld ho hp ha
  refine ⟨?_, ?_⟩
  · cases hbb : (b && b') with
    | true => rfl
    | false => exact absurd hsol (hcap.conflict hbb β hb)
  · obtain ⟨β', a1, k1⟩ := hcap.sound β hb hsol
    refine ⟨β', a1, fun c hc => k1 _ hc, fun β'' ops W ts a2 hrun hr => ?_⟩
    have k2 : ∀ e ∈ new, pholds β'' τ e := fun e he => (hcap.locality e he _ _ a2).1 (k1 e he)
    obtain ⟨h1, h2, -, h4⟩ := C57_fed_partial (lt_of_lt_of_le ho.pos hcap.mono) (postFed_admFed hpr k2 hrun) hr
    exact ⟨h1, h2, h4⟩

end

/-! ### A concrete case -/

/-- The program `&sum(body) { x } <= 0`, `&dom { 1..1 } = y`, `&sum { y } <= 2`, and `&sum { x; y } <= 1`. -/
def ansProgram : List TheoryAtom :=
  [{ term := .sym "__sum_b", lit := 2, elems := [⟨[.sym "x"], false⟩], guard := some (.le, .num 0) },
   { term := .sym "dom", lit := 3, elems := [⟨[.fn ".." [.num 1, .num 1]], false⟩], guard := some (.eq, .sym "y") },
   { term := .sym "__sum_h", lit := 1, elems := [⟨[.sym "y"], false⟩], guard := some (.le, .num 2) },
   { term := .sym "__sum_h", lit := 3, elems := [⟨[.sym "x"], false⟩, ⟨[.sym "y"], false⟩], guard := some (.le, .num 1) }]

def ansStart : BState := { symMap := [], numVars := 0, nextLit := 4, log := [] }

def ansEvs : List Event := [.constraint 2 [(1, 0)] 0 true, .dom 3 1 [(1, 2)], .constraint 1 [(1, 1)] 2 false, .constraint 3 [(1, 0), (1, 1)] 1 false]

def ansEnd : BState := { symMap := [(.fn "x" [] true, 0), (.fn "y" [] true, 1)], numVars := 2, nextLit := 4, log := ansEvs }

def ansPosts : List PEv := [.simple 2 1 0 0 true, .dom 3 1 [(1, 2)], .simple 1 1 1 2 false, .con (.sum 3 1 [(1, 0), (1, 1)])]

/-- The values `x = 0` and `y = 1`. -/
def ansVals (v : Nat) : Int := if v = 1 then 1 else 0
def ansSyms (x : Sym) : Int := if x = .fn "y" [] true then 1 else 0

theorem ans_loaded : Loaded noPow exEnv plainEnv ansProgram ansStart ansEnd ⟨4, []⟩ ⟨4, ansPosts⟩ ansEvs true true ansPosts where
  wf := ⟨by decide, by decide, by decide⟩
  lits := by
    intro a ha
    simp only [ansProgram, List.mem_cons, List.not_mem_nil, or_false] at ha
    rcases ha with rfl | rfl | rfl | rfl <;> exact ⟨by decide, by rw [abs_lt]; decide⟩
  products := by
    intro a ha h
    simp only [ansProgram, List.mem_cons, List.not_mem_nil, or_false] at ha
    rcases ha with rfl | rfl | rfl | rfl <;> simp [theoryName] at h
  parsed := by decide +kernel
  vars := by decide
  calls := rfl
  strict := by
    intro e he lit coab a b coc c rhs h
    subst h
    simp [ansEvs] at he
  next := rfl
  handed := by decide +kernel
  posts := rfl

theorem ans_oracle (τ : Nat → Int) : Oracle exEnv τ [] 4 (fun β => β 1 = true) where
  pos := by decide
  tt β h := by simpa [litTrue] using h
  loc β β' h hb := by rw [← h 1 (by decide)]; exact hb
  sound new l β h hb _ := by
    have : l = 1 := by simpa [exEnv] using h
    subst this; simpa [litTrue] using hb
  rejects _ _ _ h := by cases h

theorem ans_poracle (τ : Nat → Int) : POracle plainEnv τ [] 4 (fun β => β 1 = true) where
  pos := by decide
  tt β h := by simpa [litTrue] using h
  loc β β' h hb := by rw [← h 1 (by decide)]; exact hb
  sound _ _ _ _ h := by cases h
  rejects _ _ _ h := by cases h
  sort l := List.Perm.refl l

/-- The hypotheses of `C72_answers_partial` are met (see `ok_run` and `ok_passed` for the rest). -/
example : (∀ e ∈ ansPosts, passedOn okOps e) ∧ NoRemoval okOps ∧ OkFed okβ okOps (World.init 4) [Told.none] ok9 [okTold, Told.none] ∧
    (∀ l, litOk 4 l → litTrue okβ l → okAll.isTrue ok9.log l = true) ∧ (∀ q ∈ ansEnd.symMap, ok9.getValue q.2 = some (ansSyms q.1)) := by
  refine ⟨?_, ?_, ok_run, ?_, ?_⟩
  · intro e he
    simp only [ansPosts, List.mem_cons, List.not_mem_nil, or_false] at he
    rcases he with rfl | rfl | rfl | rfl
    · exact ⟨idle, by simp [okOps]⟩
    · exact ⟨idle, by simp [okOps]⟩
    · exact ⟨idle, by simp [okOps]⟩
    · show Op.addConstraint _ ∈ okOps
      simp [okOps]
  · intro op hop
    simp only [okOps, List.mem_cons, List.not_mem_nil, or_false] at hop
    rcases hop with rfl | rfl | rfl | rfl | rfl | rfl | rfl | rfl | rfl <;> exact ⟨fun n e => (by cases e), fun n e => (by cases e)⟩
  · intro l h1 h2
    obtain ⟨h3, h4⟩ := h1
    rw [abs_lt] at h4
    have : l = 1 ∨ l = 2 ∨ l = 3 ∨ l = -1 ∨ l = -2 ∨ l = -3 := by omega
    rcases this with rfl | rfl | rfl | rfl | rfl | rfl
    · decide +kernel
    · decide +kernel
    · decide +kernel
    all_goals simp [litTrue, okβ] at h2
  · intro q hq
    simp only [ansEnd, List.mem_cons, List.not_mem_nil, or_false] at hq
    rcases hq with rfl | rfl <;> decide +kernel

theorem ans_agree {cc : CC} {W : World} {ts : List Told} (h1 : EnvSound cc okβ) (h2 : EnvMono cc)
    (h3 : W.book.cs.all (fun c => litB okβ c.con.lit) = true) (h4 : ∀ t, ts.head? = some t → ∀ l, t.tried l → cc.isTrue W.log l = true) : FedAgrees cc okβ W ts := by
  refine ⟨h1, h2, fun c hc l hl log _ _ => ?_, h4⟩
  have := litB_iff.mp (List.all_eq_true.mp h3 c hc)
  rcases hl with ⟨es, hl⟩ | ⟨es, hl⟩ <;> rw [hl] at this <;> exact this

theorem ans_none {cc : CC} {W : World} (t : Told) (ht : [Told.none].head? = some t) : ∀ l, t.tried l → cc.isTrue W.log l = true := by
  intro l hl
  injection ht with ht
  subst ht
  exact hl.elim

theorem post_setup {ops : List Op} {W : World} {ts : List Told} (h : PostFed ansPosts okβ ansVals ops ok7 [Told.none] W ts) :
    PostFed ansPosts okβ ansVals (.addVar 0 1 :: .addVar 0 3 :: .simple idle 2 1 0 0 true :: .dom idle 3 1 [(1, 2)] :: .simple idle 1 1 1 2 false ::
      .addConstraint (.sum 3 1 [(1, 0), (1, 1)]) :: .check idle false 9 :: ops) (World.init 4) [Told.none] W ts := by
  have i1 : EnvSound idle okβ := idle_sound (by decide)
  refine .cons (Op.preB_iff.mp (by decide +kernel)) trivial (fun cc h => by cases h) (by constructor <;> decide +kernel) (after_eq (r := true) (by decide +kernel)) ?_
  refine .cons (Op.preB_iff.mp (by decide +kernel)) trivial (fun cc h => by cases h) (by constructor <;> decide +kernel) (after_eq (r := true) (by decide +kernel)) ?_
  refine .cons (Op.preB_iff.mp (by decide +kernel)) ⟨by decide +kernel, ?_⟩ ?_ ⟨rfl, by simp [ansPosts]⟩ (after_eq (r := true) (by decide +kernel)) ?_
  · intro t ht l hl
    have ht : t ∈ [Told.none] := ht
    rw [List.mem_singleton] at ht
    subst ht
    exact hl.elim
  · rintro cc ⟨⟩
    exact ans_agree i1 idle_mono (by decide +kernel) ans_none
  refine .cons (Op.preB_iff.mp (by decide +kernel)) ?_ ?_ ⟨rfl, by simp [ansPosts]⟩ (after_eq (r := true) (by decide +kernel)) ?_
  · show _ ≤ _
    decide +kernel
  · rintro cc ⟨⟩
    exact ans_agree i1 idle_mono (by decide +kernel) ans_none
  refine .cons (Op.preB_iff.mp (by decide +kernel)) ⟨by decide +kernel, ?_⟩ ?_ ⟨rfl, by simp [ansPosts]⟩ (after_eq (r := true) (by decide +kernel)) ?_
  · intro t ht l hl
    have ht : t ∈ [Told.none] := ht
    rw [List.mem_singleton] at ht
    subst ht
    exact hl.elim
  · rintro cc ⟨⟩
    exact ans_agree i1 idle_mono (by decide +kernel) ans_none
  refine .cons (Op.preB_iff.mp (by decide +kernel)) trivial (fun cc h => by cases h) ⟨by simp [ansPosts], fun _ _ _ _ _ _ _ e => by cases e⟩ (after_eq (r := true) (by decide +kernel)) ?_
  refine .cons (Op.preB_iff.mp (by decide +kernel)) ?_ ?_ trivial (after_eq (r := true) (by decide +kernel)) ?_
  · show _ ≤ _
    decide +kernel
  · rintro cc ⟨⟩
    exact ans_agree i1 idle_mono (by decide +kernel) ans_none
  exact h

/-- The hypotheses of `C72_kept_partial` and of its conclusion are met: `x = 0` and `y = 1` is a solution, and so is what is posted in the sequence of
calls. -/
example : Agree ansSyms ansVals ansEnd ∧ (∀ a ∈ ansProgram, atomHolds noPow ansSyms okβ (exEnv.solverLit a.lit) a) ∧
    PostFed ansPosts okβ ansVals okOps (World.init 4) [Told.none] ok9 [okTold, Told.none] ∧ Respects okβ ansVals ok9.log := by
  have hag : Agree ansSyms ansVals ansEnd := by
    intro q hq
    simp only [ansEnd, List.mem_cons, List.not_mem_nil, or_false] at hq
    rcases hq with rfl | rfl <;> decide
  refine ⟨hag, ?_, ?_, respects_of (by decide +kernel)⟩
  · have hcap := (Loaded.captures noPow (by intro x y z h; cases h) exEnv plainEnv (fun β => β 1 = true) ansProgram ansStart ansEnd ⟨4, []⟩ ⟨4, ansPosts⟩ ansEvs true true ans_loaded
      (σ := ansSyms) (τ := ansVals) (ans_oracle _) (ans_poracle _) hag).2
    refine hcap.complete okβ (by decide) ?_
    intro e he
    simp only [ansPosts, List.mem_cons, List.not_mem_nil, or_false] at he
    rcases he with rfl | rfl | rfl | rfl
    · show (_ ↔ _)
      simp [litTrue, okβ, ansVals]
    · exact fun _ => ⟨(1, 2), by simp, by decide, by decide⟩
    · exact fun _ => by decide
    · exact fun _ => by show wsum _ _ ≤ _; decide
  have all : ∀ {W : World}, [(2 : Int), 4, -5].all (okAll.isTrue W.log) = true → ∀ t, [okTold, Told.none].head? = some t → ∀ l, t.tried l →
      okAll.isTrue W.log l = true := by
    intro W h t ht l hl
    injection ht with ht
    subst ht
    rcases hl with hl | hl
    · exact hl.elim
    · exact List.all_eq_true.mp h l hl
  have i2 : EnvSound okAll okβ := assigns_sound (by decide) (by decide)
  refine post_setup ?_
  refine .cons (Op.preB_iff.mp (by decide +kernel)) ?_ ?_ (by intro l hl; simp only [List.mem_cons, List.not_mem_nil, or_false] at hl; rcases hl with rfl | rfl | rfl <;> decide) (after_eq (r := true) (by decide +kernel)) ?_
  · show _ ≤ _ ∧ _
    decide +kernel
  · rintro cc ⟨⟩
    exact ans_agree i2 (fun _ _ _ _ h => h) (by decide +kernel) ans_none
  have e1 : toldAfter (.propagate okAll [2, 4, -5]) ok7 ok8 true [Told.none] = [okTold, Told.none] := by
    have : ok7.book.levels.length < ok8.book.levels.length := by decide +kernel
    simp only [toldAfter, if_pos this, okTold]
  show PostFed _ _ _ _ ok8 (toldAfter (.propagate okAll [2, 4, -5]) ok7 ok8 true [Told.none]) _ _
  rw [e1]
  refine .cons (Op.preB_iff.mp (by decide +kernel)) ?_ ?_ trivial (after_eq (r := true) (by decide +kernel)) (.nil _ _)
  · show _ ≤ _
    decide +kernel
  · rintro cc ⟨⟩
    exact ans_agree i2 (fun _ _ _ _ h => h) (by decide +kernel) (all (by decide +kernel))

end Clingcon.Props
