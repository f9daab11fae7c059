import Verif.Spec.Init
import Verif.Proof.Answers
import Verif.Proof.Tidy
import Verif.Props.Solutions
import Verif.Props.TranslateRun
import Verif.Props.Levels
import Verif.Props.Copy

/-! Preparing the solvers of all threads. -/
set_option linter.unusedSimpArgs false
set_option linter.unusedVariables false
namespace Clingcon
open Spec VarState Props

variable {W W' : World} {cc : CC} {tc : TConf} {fuel : Nat} {T T' : Threads} {env : InitEnv}

theorem res_bind {α γ : Type} {x : Res α} {f : α → Res γ} {b : γ} (h : (x >>= f) = .ok b) : ∃ a, x = .ok a ∧ f a = .ok b := by
  cases x with
  | error e => cases h
  | ok a => exact ⟨a, rfl, h⟩

/-! ### Single solvers -/

/-- A solver that has been reached by calls and is on the top level. -/
def Sits (W : World) : Prop := Reach W ∧ W.book.levels.length = 1

theorem Sits.step {op : Op} {r : Bool} (h : Sits W) (hp : op.pre W) (hx : op.exec W = .ok (r, W')) (h1 : ∀ cc ls, op ≠ .propagate cc ls) (h2 : op ≠ .undo) : Sits W' :=
  ⟨h.1.step hp hx, by rw [op_levels hp hx h.1.wi h1 h2]; exact h.2⟩

theorem states_acon : states W = (W.book.cs.map acon).map Prod.swap := by
  unfold states
  rw [List.map_map]
  rfl

theorem states_of_acon (h : W'.book.cs.map acon = W.book.cs.map acon) : states W' = states W := by rw [states_acon, states_acon, h]

/-- The first solver; `ns` are the constraints in use and `m` is the objective. -/
structure Main (W : World) (ns : List Nat) (m : Option Nat) : Prop where
  sits : Sits W
  quiet : W.noChanges
  ia : IA W.book
  once : ns.Nodup
  listed : ∀ n, n ∈ ns ↔ Alive W n
  objective : ∀ n, m = some n ↔ ∃ a es, (states W)[n]? = some (.minimize a es, true)

theorem Main.same {ns : List Nat} {m : Option Nat} (h : Main W ns m) (hs : Sits W') (hq : W'.noChanges) (hi : IA W'.book) (e : states W' = states W) : Main W' ns m := by
  refine ⟨hs, hq, hi, h.once, fun n => ?_, fun n => ?_⟩
  · rw [h.listed n]; unfold Alive; rw [e]
  · rw [e]; exact h.objective n

theorem ia_iff : IA W.book ↔ ∀ n ∈ W.book.inactive, ∃ c, (states W)[n]? = some (c, true) ∧ ∀ a es, c ≠ .minimize a es := by
  unfold IA
  constructor
  · intro h n hn
    obtain ⟨c, h1, h2, h3⟩ := h n hn
    exact ⟨c.con, states_get.mpr ⟨c, h1, h2, rfl⟩, h3⟩
  · intro h n hn
    obtain ⟨c, h1, h2⟩ := h n hn
    obtain ⟨x, g1, g2, g3⟩ := states_get.mp h1
    exact ⟨x, g1, g2, by rw [g3]; exact h2⟩

theorem states_removed {n : Nat} {u : Unit} (h : removeConstraint n W = .ok (u, W')) :
    (∃ c b, (states W)[n]? = some (c, b) ∧ states W' = (states W).set n (c, false)) ∧ (W.noChanges → W'.noChanges) := by
  unfold Clingcon.removeConstraint at h
  obtain ⟨W1, W2, h1, h2⟩ := SM.bind_ok h
  obtain ⟨e0, e0'⟩ := get_iff.mp h1
  rw [e0, e0'] at h2
  cases hc : W.book.cs[n]? with
  | none => rw [hc] at h2; cases h2
  | some c =>
  rw [hc] at h2
  obtain ⟨_, W3, h3, h4⟩ := SM.bind_ok h2
  obtain ⟨l, W4, h5, h6⟩ := SM.bind_ok h4
  simp only [smok] at h5 h6
  obtain ⟨ls, hls, rfl⟩ := h5
  obtain ⟨_, W5, ⟨hl, rfl⟩, rfl⟩ := h6
  obtain ⟨e1, e2, e3, e4⟩ := removeVarWatches_eff h3
  have hcs : W5.book.cs = W.book.cs := by rw [e1]
  refine ⟨⟨c.con, c.alive, ?_, ?_⟩, fun hq => ?_⟩
  · unfold states; rw [List.getElem?_map, hc]; rfl
  · unfold states
    simp only [Book.removeMarks, hcs, hc]
    rw [List.map_set]
  · unfold World.noChanges at hq ⊢
    simp only [Book.removeMarks, hcs, hc]
    rw [e1]
    exact hq

theorem Main.remove {ns : List Nat} {n : Nat} {u : Unit} (h : Main W ns (some n)) (hx : removeConstraint n W = .ok (u, W')) : Main W' (ns.erase n) none := by
  obtain ⟨⟨c, b, h1, h2⟩, h3⟩ := states_removed hx
  obtain ⟨a, es, h4⟩ := (h.objective n).mp rfl
  rw [h4] at h1
  obtain ⟨rfl, rfl⟩ := Prod.mk.inj (Option.some.inj h1)
  obtain ⟨x, g1, g2, g3⟩ := states_get.mp h4
  have hlt : n < (states W).length := (List.getElem?_eq_some_iff.mp h4).1
  refine ⟨h.sits.step (op := .removeConstraint n) (r := true) h.sits.2 ?_ (fun _ _ e => by cases e) (fun e => by cases e), h3 h.quiet, ?_, h.once.erase _, fun k => ?_, fun k => ?_⟩
  · unfold Op.exec
    rw [bind_iff]
    exact ⟨(), W', hx, rfl⟩
  · exact ia_removeConstraint hx ⟨x, a, es, g1, g3⟩ h.ia
  · rw [h.once.mem_erase_iff, h.listed k]
    unfold Alive
    rw [h2]
    by_cases hk : k = n
    · subst hk
      rw [List.getElem?_set_self hlt]
      simp
    · rw [List.getElem?_set_ne (Ne.symm hk)]
      simp [hk]
  · rw [h2]
    by_cases hk : k = n
    · subst hk
      rw [List.getElem?_set_self hlt]
      simp
    · rw [List.getElem?_set_ne (Ne.symm hk)]
      have := h.objective k
      simp only [Option.some.injEq] at this
      rw [← this]
      simp only [reduceCtorEq, false_iff]
      exact fun e => hk e.symm

theorem quiet_frame (h : frame W' = frame W) (hq : W.noChanges) : W'.noChanges := by
  have : W'.book = W.book := congrArg Prod.snd h
  unfold World.noChanges at hq ⊢
  rw [this]; exact hq

theorem Main.update {ns : List Nat} {m : Option Nat} {k : Nat} {u : Unit} (h : Main W ns m) (hx : solverUpdate k W = .ok (u, W')) : Main W' ns m := by
  have hop : (Op.update k).exec W = .ok (true, W') := by
    unfold Op.exec
    rw [bind_iff]
    exact ⟨(), W', hx, rfl⟩
  have hk : W'.book.cs.map acon = W.book.cs.map acon := acon_keep (x := solverUpdate k) (fun K => by
    unfold solverUpdate
    exact Keep.bind (keepA_modify (fun _ => rfl)) (fun _ => Keep.bind (Keep.fr Fr.get) (fun W => Keep.fr fr_updateStep))) hx h.ia
  refine h.same (h.sits.step (op := .update k) trivial hop (fun _ _ e => by cases e) (fun e => by cases e)) ?_ (ia_step (fun n e => by cases e) hop h.ia) (states_of_acon hk)
  unfold solverUpdate at hx
  simp only [smok] at hx
  obtain ⟨_, W1, rfl, W2, W3, ⟨e1, e2⟩, h4⟩ := hx
  rw [e1, e2] at h4
  refine quiet_frame (fr_updateStep.fr _ _ _ h4) ?_
  exact h.quiet

/-! ### Theory atoms -/

theorem built_quiet {op : Op} {r : Bool} (hb : op.built = true) (hc : ∀ c, op ≠ .addConstraint c) (hx : op.exec W = .ok (r, W')) (hq : W.noChanges) (hi : IA W.book) :
    W'.noChanges ∧ states W' = states W := by
  have hs : (∀ n, op ≠ .removeConstraint n) ∧ ∀ rem, op ≠ .removeConstraints rem := by
    constructor
    · rintro n rfl; cases hb
    · rintro n rfl; cases hb
  have key : ∀ {α : Type} {x : SM α} {a : α}, Fr x → x W = .ok (a, W') → W'.noChanges ∧ states W' = states W := fun hf h => by
    have e := hf.fr _ _ _ h
    refine ⟨quiet_frame e hq, ?_⟩
    have : W'.book = W.book := congrArg Prod.snd e
    unfold states; rw [this]
  cases op with
  | addVar lo hi' =>
    obtain ⟨_, W1, h1, h2⟩ := SM.bind_ok hx
    obtain ⟨-, rfl⟩ := pure_iff.mp h2
    obtain ⟨v, h3⟩ := discard_iff.mp h1
    injection h3 with h3
    obtain ⟨-, rfl⟩ := Prod.mk.inj h3
    exact ⟨hq, rfl⟩
  | simple cc l co v r s => exact key fr_addSimple hx
  | dom cc l v d => exact key fr_addDom hx
  | addConstraint c => exact absurd rfl (hc c)
  | fresh => exact key fr_fresh hx
  | post e => exact key fr_post hx
  | _ => cases hb

theorem add_quiet {c : Constr} {n : Nat} (hx : addConstraint c W = .ok (n, W')) (hq : W.noChanges) : W'.noChanges := by
  unfold addConstraint at hx
  obtain ⟨st, Wa, h1, h2⟩ := bind_iff.mp hx
  obtain ⟨rfl, s1, s2, -, -, -⟩ := initState_eff h1
  simp only [smok] at h2
  obtain ⟨W2, W3, ⟨rfl, rfl⟩, _, W4, rfl, _, W5, h5, _, W6, rfl, -, rfl⟩ := h2
  obtain ⟨e1, -, -, -⟩ := addVarWatches_eff h5
  have : W5.noChanges := by
    unfold World.noChanges at hq ⊢
    rw [e1]; exact hq
  unfold World.noChanges at this ⊢
  show (W5.book.markTodo _).inLdiff = [] ∧ (W5.book.markTodo _).inUdiff = []
  unfold Book.markTodo
  split
  · exact this
  · split_ifs <;> exact this

theorem Main.add {ns : List Nat} {m : Option Nat} {c : Constr} {n : Nat} (h : Main W ns m) (hx : addConstraint c W = .ok (n, W')) :
    n = W.book.cs.length ∧ Sits W' ∧ W'.noChanges ∧ IA W'.book ∧ (ns ++ [n]).Nodup ∧ (∀ k, k ∈ ns ++ [n] ↔ Alive W' k) ∧ states W' = states W ++ [(c, true)] := by
  have hop : (Op.addConstraint c).exec W = .ok (true, W') := by
    unfold Op.exec
    rw [bind_iff]
    exact ⟨(), W', discard_iff.mpr ⟨n, hx⟩, rfl⟩
  obtain ⟨rfl, e⟩ := states_add hx
  have hlen : (states W).length = W.book.cs.length := by simp [states]
  refine ⟨hlen, h.sits.step (op := .addConstraint c) ⟨h.sits.2, h.quiet⟩ hop (fun _ _ e => by cases e) (fun e => by cases e), ?_, ia_step (fun n e => by cases e) hop h.ia, ?_, fun k => ?_, e⟩
  · exact add_quiet hx h.quiet
  · rw [List.nodup_append]
    refine ⟨h.once, by simp, fun a ha b hb => ?_⟩
    rw [List.mem_singleton] at hb
    rintro rfl
    obtain ⟨c', hc'⟩ := (h.listed a).mp ha
    have := (List.getElem?_eq_some_iff.mp hc').1
    omega
  · rw [List.mem_append, List.mem_singleton, h.listed k]
    unfold Alive
    rw [e, List.getElem?_append]
    split_ifs with hk
    · constructor
      · rintro (h | rfl)
        · exact h
        · omega
      · exact .inl
    · constructor
      · rintro (⟨c', hc'⟩ | rfl)
        · exact absurd (List.getElem?_eq_some_iff.mp hc').1 hk
        · exact ⟨c, by simp⟩
      · rintro ⟨c', hc'⟩
        right
        have := (List.getElem?_eq_some_iff.mp hc').1
        simp at this
        omega

theorem Main.atoms : ∀ {ops : List Op} {W : World} {ns ns' : List Nat} {W' : World}, Main W ns none → addAtoms ops W ns = .ok (true, W', ns') → Main W' ns' none
  | [], W, ns, ns', W', h, hx => by
    injection hx with hx
    injection hx with _ hx
    obtain ⟨rfl, rfl⟩ := Prod.mk.inj hx
    exact h
  | op :: ops, W, ns, ns', W', h, hx => by
    unfold addAtoms at hx
    split at hx
    · rename_i hb
      rw [Bool.and_eq_true] at hb
      obtain ⟨p, h1, h2⟩ := res_bind hx
      obtain ⟨r, W1⟩ := p
      cases r with
      | false => injection h2 with h2; injection h2 with h2; cases h2
      | true =>
      have hp := Op.preB_iff.mp hb.2
      by_cases hc : ∃ c, op = .addConstraint c
      · obtain ⟨c, rfl⟩ := hc
        obtain ⟨_, W2, g1, g2⟩ := SM.bind_ok h1
        obtain ⟨-, rfl⟩ := pure_iff.mp g2
        obtain ⟨n, g3⟩ := discard_iff.mp g1
        obtain ⟨rfl, a1, a2, a3, a4, a5, a6⟩ := h.add g3
        refine Main.atoms (ns := ns ++ [W.book.cs.length]) ⟨a1, a2, a3, a4, a5, fun k => ?_⟩ h2
        rw [a6]
        simp only [reduceCtorEq, false_iff]
        rintro ⟨a, es, he⟩
        rw [List.getElem?_append] at he
        split_ifs at he with hk
        · have := (h.objective k).mpr ⟨a, es, he⟩
          cases this
        · have h' := List.mem_of_getElem? he
          rw [List.mem_singleton] at h'
          injection h' with h'
          have hb1 := hb.1
          rw [← h'] at hb1
          cases hb1
      · have hc' : ∀ c, op ≠ .addConstraint c := fun c e => hc ⟨c, e⟩
        obtain ⟨q1, q2⟩ := built_quiet hb.1 hc' h1 h.quiet h.ia
        have hm : Main W1 ns none := by
          refine h.same (h.sits.step hp h1 ?_ ?_) q1 (ia_step ?_ h1 h.ia) q2
          · rintro cc ls rfl; cases hb.1
          · rintro rfl; cases hb.1
          · rintro n rfl; cases hb.1
        refine Main.atoms (ops := ops) hm ?_
        cases op <;> first | exact h2 | exact absurd rfl (hc' _)
    · cases hx

/-! ### Bounds and simplification -/

theorem Main.op {ns : List Nat} {m : Option Nat} {op : Op} {r : Bool} (h : Main W ns m) (hp : op.pre W) (hx : op.exec W = .ok (r, W')) (h1 : ∀ cc ls, op ≠ .propagate cc ls)
    (h2 : op ≠ .undo) (h3 : (∀ n, op ≠ .removeConstraint n) ∧ ∀ rem, op ≠ .removeConstraints rem) (hk : W'.book.cs.map acon = W.book.cs.map acon) (hq : W'.noChanges) : Main W' ns m :=
  h.same (h.sits.step hp hx h1 h2) hq (ia_step (fun n e => absurd e (h3.1 n)) hx h.ia) (states_of_acon hk)

theorem updateBounds_quiet {others : List VarState} {ck : Bool} (hs : Sits W) (h0 : cc.level = 0) (h : updateBounds cc others ck fuel W = .ok (true, W')) : W'.noChanges := by
  unfold updateBounds at h
  obtain ⟨b, W1, h1, h2⟩ := SM.bind_ok h
  cases b with
  | false => cases (pure_iff.mp (show (Pure.pure false : SM Bool) W1 = .ok (true, W') from h2)).1
  | true =>
  have h2 : solverCheck cc ck fuel W1 = .ok (true, W') := h2
  have e := fr_takeBounds.fr _ _ _ h1
  have hl : W1.book.levels = W.book.levels := by
    have : W1.book = W.book := congrArg Prod.snd e
    rw [this]
  have wi1 : WI W1 := by
    have hb := hs.1.wi.bi
    refine ⟨?_, ?_⟩
    · rw [e]; exact hb
    · rw [hl]; exact hs.1.wi.base
  have a1 : At [baseLvl] (alF (frame W1), auF (frame W1), (frame W1).1.length) (frame W1) :=
    ⟨wi1.bi, wi1.levels (by rw [hl]; exact hs.2), fun _ _ _ _ _ => ⟨rfl, rfl⟩, rfl⟩
  obtain ⟨-, s⟩ := solverCheck_eff h2 a1
  have s := s rfl (Or.inl (fun l hl => Or.inl (by cases hl; exact h0)))
  exact ⟨s.low, s.upp⟩

theorem Main.gather {ns : List Nat} {m : Option Nat} (h0 : env.cc.level = 0) : ∀ {os : List World} {W W' : World}, Main W ns m → gatherBounds env os W = .ok (true, W') → Main W' ns m
  | [], W, W', h, hx => by
    obtain ⟨-, rfl⟩ := pure_iff.mp hx
    exact h
  | o :: os, W, W', h, hx => by
    unfold gatherBounds at hx
    obtain ⟨b, W1, h1, h2⟩ := SM.bind_ok hx
    cases b with
    | false => cases (pure_iff.mp (show (Pure.pure false : SM Bool) W1 = .ok (true, W') from h2)).1
    | true =>
    have h2 : gatherBounds env os W1 = .ok (true, W') := h2
    refine Main.gather h0 (h.op (op := .updateBounds env.cc o.vars env.checkState env.fuel) trivial h1 (fun _ _ e => by cases e) (fun e => by cases e)
      ⟨(fun _ e => by cases e), (fun _ e => by cases e)⟩ ?_ (updateBounds_quiet h.sits h0 h1)) h2
    refine acon_keep (x := updateBounds env.cc o.vars env.checkState env.fuel) (fun K => ?_) h1 h.ia
    unfold Clingcon.updateBounds
    refine Keep.bind (Keep.fr fr_takeBounds) (fun b => ?_)
    split
    · exact Keep.fr Fr.pure
    · exact a_solverCheck

theorem factLoop_quiet {trail : List SEv → List Lit} {ck : Bool} (h0 : cc.level = 0) : ∀ {n : Nat} {W W' : World}, factLoop cc trail ck fuel n W = .ok (true, W') →
    WI W → W.book.levels.length = 1 → W.noChanges → W'.noChanges
  | 0, W, W', h, _, _, _ => by cases h
  | n + 1, W, W', h, wi, top, hq => by
    unfold factLoop at h
    obtain ⟨b, W1, h1, h2⟩ := SM.bind_ok h
    obtain ⟨rfl, rfl⟩ := ccPropagate_iff.mp h1
    split at h2
    · cases (pure_iff.mp h2).1
    obtain ⟨W2, W3, h3, h4⟩ := SM.bind_ok h2
    obtain ⟨rfl, rfl⟩ := get_iff.mp h3
    dsimp only at h4
    split at h4
    · obtain ⟨-, rfl⟩ := pure_iff.mp h4
      exact hq
    obtain ⟨b, W4, h5, h6⟩ := SM.bind_ok h4
    cases b with
    | false => cases (pure_iff.mp (show (Pure.pure false : SM Bool) W4 = .ok (true, W') from h6)).1
    | true =>
    obtain ⟨_, W5, h7, h8⟩ := SM.bind_ok (show (do _; _ : SM Bool) W4 = _ from h6)
    obtain rfl := modify_iff.mp h7
    obtain ⟨b, W6, h9, h10⟩ := SM.bind_ok h8
    cases b with
    | false => cases (pure_iff.mp (show (Pure.pure false : SM Bool) W6 = .ok (true, W') from h10)).1
    | true =>
    have h10 : factLoop cc trail ck fuel n W6 = .ok (true, W') := h10
    generalize hX : trail (.propagate :: W.log) = X at *
    have a1 : At [baseLvl] (alF (frame W), auF (frame W), (frame W).1.length) (frame { W with log := .propagate :: W.log }) :=
      ⟨wi.bi, wi.levels top, fun _ _ _ _ _ => ⟨rfl, rfl⟩, rfl⟩
    have a4 := (keep_propagate0 h0).keep _ _ _ h5 a1
    have a5 : At [baseLvl] (alF (frame W), auF (frame W), (frame W).1.length) (frame { W4 with book.trailOffset := X.length }) :=
      (keep_other (fun W => ⟨W.book.splitLast, X.length, W.book.minimizeLevel, W.book.minimizeBound, rfl⟩)).keep _ _ _ h7 a4
    obtain ⟨a6, s6⟩ := solverCheck_eff h9 a5
    have s6 := s6 rfl (Or.inl (fun l hl => Or.inl (by cases hl; exact h0)))
    have top6 : W6.book.levels.length = 1 := congrArg List.length (a6.lev : W6.book.levels = _)
    have wi6 : WI W6 := ⟨a6.bi, by rw [show W6.book.levels = _ from a6.lev]; rfl⟩
    exact factLoop_quiet h0 h10 wi6 top6 ⟨s6.low, s6.upp⟩

theorem Main.simplify {ns : List Nat} {m : Option Nat} {trail : List SEv → List Lit} {ck : Bool} (h : Main W ns m) (h0 : cc.level = 0)
    (hx : solverSimplify cc trail ck fuel W = .ok (true, W')) : Main W' ns m := by
  refine h.op (op := .simplify cc trail ck fuel) h0 hx (fun _ _ e => by cases e) (fun e => by cases e) ⟨(fun _ e => by cases e), (fun _ e => by cases e)⟩ ?_
    (factLoop_quiet h0 hx h.sits.1.wi h.sits.2 h.quiet)
  refine acon_keep (x := solverSimplify cc trail ck fuel) (fun K => ?_) hx h.ia
  unfold solverSimplify
  exact a_factLoop

/-! ### Translation -/

/-- The flag has the given value. -/
def FlagIs (b : Bool) (F : List VarState × Book) : Prop := F.2.translateMinimize = b

theorem keepF_addVar {f : Bool} {a b : Int} : Keep (FlagIs f) (addVar a b) :=
  ⟨fun W x W' h hp => by injection h with h; injection h with _ h; subst h; exact hp⟩
macro_rules | `(tactic| keep_step) => `(tactic| with_reducible exact keepF_addVar)
theorem keepF_termRep {f : Bool} {e : CoVarVec × Int} {a : Int × Int} : Keep (FlagIs f) (termRep tc e a) := by
  unfold termRep; keep_auto
macro_rules | `(tactic| keep_step) => `(tactic| with_reducible exact keepF_termRep)
theorem keepF_termVars {f : Bool} {m : List (Int × Nat)} : ∀ {es : List (CoVarVec × Int)} {as : List (Int × Int)} {ds : List IntervalSet},
    Keep (FlagIs f) (termVars tc m es as ds) := by
  intro es
  induction es with
  | nil => intro as ds; unfold termVars; keep_auto
  | cons e es ih =>
    intro as ds
    cases as with
    | nil => unfold termVars; keep_auto
    | cons a as =>
      cases ds with
      | nil => unfold termVars; keep_auto
      | cons d ds => unfold termVars; keep_auto <;> exact ih
macro_rules | `(tactic| keep_step) => `(tactic| with_reducible exact keepF_termVars)
theorem keepF_distinctTranslate {f : Bool} {c : CState} {l : Int} {es : List (CoVarVec × Int)} : Keep (FlagIs f) (distinctTranslate cc tc c l es) := by
  unfold distinctTranslate; keep_auto

/-- The flag tells whether the objective has been translated. -/
theorem flag_one {n : Nat} {b : Bool} {added : List Constr} {c : Constr} (hc : (states W)[n]? = some (c, true)) (h : translateOne cc tc fuel n W = .ok (((true, b), added), W')) :
    ((∀ a es, c ≠ .minimize a es) → W'.book.translateMinimize = W.book.translateMinimize) ∧ ((∃ a es, c = .minimize a es) → W'.book.translateMinimize = b) := by
  obtain ⟨x, g1, g2, rfl⟩ := states_get.mp hc
  unfold translateOne at h
  obtain ⟨y, W1, h1, h2⟩ := SM.bind_ok h
  obtain ⟨⟨g3, -⟩, rfl⟩ := getCS_iff.mp h1
  rw [g1] at g3
  injection g3 with g3
  subst g3
  have fl : ∀ {α : Type} {z : SM α} {a : α}, Fr z → z W1 = .ok (a, W') → W'.book.translateMinimize = W1.book.translateMinimize := fun hf hz => by
    have : W'.book = W1.book := congrArg Prod.snd (hf.fr _ _ _ hz)
    rw [this]
  cases hk : x.con with
  | sum l r es =>
    rw [hk] at h2
    refine ⟨fun _ => fl (z := _) ?_ h2, by rintro ⟨a, es, e⟩; cases e⟩
    fr_auto
  | distinct l es =>
    rw [hk] at h2
    exact ⟨fun _ => (keepF_distinctTranslate (f := W1.book.translateMinimize)).keep _ _ _ h2 rfl, by rintro ⟨a, es, e⟩; cases e⟩
  | disjoint l es =>
    rw [hk] at h2
    exact ⟨fun _ => fl Fr.pure h2, by rintro ⟨a, es, e⟩; cases e⟩
  | nonlinear l ca x y cb z r =>
    rw [hk] at h2
    exact ⟨fun _ => fl Fr.pure h2, by rintro ⟨a, es, e⟩; cases e⟩
  | minimize a es =>
    rw [hk] at h2
    refine ⟨fun hm => absurd rfl (hm a es), fun _ => ?_⟩
    obtain ⟨r, W2, h3, h4⟩ := SM.bind_ok (show (do let r ← minimizeTranslate cc tc a es; return (r, []) : SM _) W1 = _ from h2)
    obtain ⟨e, rfl⟩ := pure_iff.mp h4
    injection e with e _
    subst e
    unfold minimizeTranslate at h3
    obtain ⟨W3, W4, h5, h6⟩ := SM.bind_ok h3
    obtain ⟨e1, e2⟩ := get_iff.mp h5
    rw [e1, e2] at h6
    obtain ⟨k, W5, h7, h8⟩ := SM.bind_ok h6
    have e5 : W5.book.translateMinimize = W1.book.translateMinimize := by
      have : Fr (requiredLiterals es) := by fr_auto
      have : W5.book = W1.book := congrArg Prod.snd (this.fr _ _ _ h7)
      rw [this]
    split at h8
    · obtain ⟨_, W6, h9, h10⟩ := SM.bind_ok h8
      obtain rfl := modify_iff.mp h9
      obtain ⟨_, W7, h11, h12⟩ := SM.bind_ok h10
      obtain ⟨_, W8, h13, h14⟩ := SM.bind_ok h12
      obtain ⟨e, rfl⟩ := pure_iff.mp h14
      injection e with _ e
      have f1 : W7.book = _ := congrArg Prod.snd ((show Fr (addMinimize TRUE_LIT (-a)) by fr_auto).fr _ _ _ h11)
      have f2 : W'.book = W7.book := congrArg Prod.snd ((show Fr (minimizeElems cc es) by fr_auto).fr _ _ _ h13)
      rw [f2, f1, e]
      rfl
    · rename_i hn
      obtain ⟨e, rfl⟩ := pure_iff.mp h8
      injection e with _ e
      rw [e5, e]
      simp only [Bool.or_eq_true, not_or, Bool.not_eq_true] at hn
      exact hn.1.1

theorem translated_unique {q : List TCon} {tr1 tr2 : List (Nat × Bool)} {W1 W2 : World} (h1 : Translated cc tc fuel q W tr1 W1) : Translated cc tc fuel q W tr2 W2 → tr2 = tr1 ∧ W2 = W1 := by
  induction h1 generalizing tr2 W2 with
  | nil W => intro h; cases h; exact ⟨rfl, rfl⟩
  | cons a1 a2 _ ih =>
    intro h
    cases h with
    | cons b1 b2 b3 =>
      rw [a1] at b1
      injection b1 with b1
      obtain ⟨rfl, rfl⟩ := Prod.mk.inj b1
      rw [a2] at b2
      injection b2 with b2
      simp only [Prod.mk.injEq, true_and] at b2
      obtain ⟨⟨e1, e2⟩, e3⟩ := b2
      rw [← e2, ← e3] at b3
      obtain ⟨rfl, rfl⟩ := ih b3
      rw [e1]
      exact ⟨rfl, rfl⟩

theorem flag_add {t : TCon} {n : Nat} {W1 : World} (h : t.add W = .ok (n, W1)) : W1.book.translateMinimize = W.book.translateMinimize := by
  cases t with
  | old m => obtain ⟨-, rfl⟩ := pure_iff.mp h; rfl
  | new c =>
    have hx : addConstraint c W = .ok (n, W1) := h
    unfold addConstraint at hx
    obtain ⟨st, Wa, h1, h2⟩ := bind_iff.mp hx
    obtain ⟨rfl, s1, s2, -, -, -⟩ := initState_eff h1
    simp only [smok] at h2
    obtain ⟨W2, W3, ⟨rfl, rfl⟩, _, W4, rfl, _, W5, h5, _, W6, rfl, -, rfl⟩ := h2
    obtain ⟨e1, -, -, -⟩ := addVarWatches_eff h5
    have : W5.book.translateMinimize = W3.book.translateMinimize := by rw [e1]
    show (W5.book.markTodo _).translateMinimize = _
    unfold Book.markTodo
    split
    · exact this
    · split_ifs <;> exact this

/-- The objective is removed exactly if the flag is set at the end. -/
theorem flag_chain {k : Nat} {q : List TCon} {tr : List (Nat × Bool)} (hs : SortOk tc) (h : Translated cc tc fuel q W tr W') : Going W → News W q → (oldOf q).Nodup →
    (∀ n, TCon.old n ∈ q → Alive W n) → (∀ n a es, (states W)[n]? = some (.minimize a es, true) → n = k) →
    ((∃ a es, (states W)[k]? = some (.minimize a es, true)) → .old k ∈ q → (k, W'.book.translateMinimize) ∈ tr) ∧
    ((∀ a es, (states W)[k]? ≠ some (.minimize a es, true)) ∨ .old k ∉ q → W'.book.translateMinimize = W.book.translateMinimize) := by
  induction h with
  | nil W => exact fun _ _ _ _ _ => ⟨(fun _ h => by cases h), fun _ => rfl⟩
  | @cons t q W n W1 b added W2 tr W3 h1 h2 h3 ih =>
    intro hg hn hd hal hu
    obtain ⟨g1, g2, s1, s2, hn', c0, hc0, ha0⟩ := news_step hs hg hn h1 h2
    have e2 := states_one h2
    have hst : (states W1)[n]? = some (c0.con, true) := states_get.mpr ⟨c0, hc0, ha0, rfl⟩
    obtain ⟨f1, f2⟩ := flag_one hst h2
    have f0 := flag_add h1
    have sp : ∀ {m : Nat} {c : Constr}, (states W)[m]? = some (c, true) → (states W2)[m]? = some (c, true) := fun hm => by rw [e2]; exact states_prefix h1 hm
    cases t with
    | old m =>
      obtain ⟨rfl, rfl⟩ := pure_iff.mp h1
      have ed : oldOf (.old n :: q) = n :: oldOf q := rfl
      rw [ed] at hd
      obtain ⟨i1, i2⟩ := ih g2 hn' (by rw [oldOf_new]; exact (List.nodup_cons.mp hd).2)
        (fun m hm => by
          rw [← mem_oldOf, oldOf_new, mem_oldOf] at hm
          obtain ⟨c, hc⟩ := hal m (List.mem_cons_of_mem _ hm)
          exact ⟨c, sp hc⟩)
        (fun m a es hm => hu m a es (by rw [← e2]; exact hm))
      have hmem : TCon.old k ∈ q ++ added.map .new ↔ TCon.old k ∈ q := by rw [← mem_oldOf, oldOf_new, mem_oldOf]
      rw [hmem] at i1 i2
      by_cases hk : n = k
      · subst hk
        have hnq : TCon.old n ∉ q := fun h => (List.nodup_cons.mp hd).1 (mem_oldOf.mpr h)
        have i3 := i2 (.inr hnq)
        constructor
        · rintro ⟨a, es, hm⟩ -
          rw [hst] at hm
          injection hm with hm
          injection hm with hm _
          rw [i3, f2 ⟨a, es, hm⟩]
          exact List.mem_cons_self
        · rintro (hm | hm)
          · rw [i3]
            exact f1 (fun a es e => hm a es (by rw [hst, e]))
          · exact absurd List.mem_cons_self hm
      · have f3 := f1 (fun a es e => hk (hu n a es (by rw [hst, e])))
        constructor
        · rintro ⟨a, es, hm⟩ hq
          rcases List.mem_cons.mp hq with hq | hq
          · injection hq with hq; exact absurd hq.symm hk
          · exact List.mem_cons_of_mem _ (i1 ⟨a, es, sp hm⟩ hq)
        · intro hm
          rw [← f3]
          refine i2 (hm.imp (fun hm a es e => hm a es ?_) (fun hm h => hm (List.mem_cons_of_mem _ h)))
          rw [← e2]; exact e
    | new c =>
      obtain ⟨hnn, e1⟩ := states_add h1
      have hcc : c0.con = c := by
        rw [e1, hnn, List.getElem?_append_right (le_refl _)] at hst
        simp at hst
        exact hst.symm
      obtain ⟨rr, es', hsum, -⟩ : ∃ r es, c = .sum TRUE_LIT r es ∧ _ := hn c List.mem_cons_self
      have hnm : ∀ a es, c0.con ≠ .minimize a es := fun a es e => by rw [hcc, hsum] at e; cases e
      have back : ∀ m a es, (states W2)[m]? = some (Constr.minimize a es, true) → (states W)[m]? = some (Constr.minimize a es, true) := fun m a es hm => by
        rw [e2, e1, List.getElem?_append] at hm
        split_ifs at hm with hl
        · exact hm
        · have := List.mem_of_getElem? hm
          rw [List.mem_singleton, hsum] at this
          cases this
      have ed : oldOf (.new c :: q) = oldOf q := rfl
      rw [ed] at hd
      obtain ⟨i1, i2⟩ := ih g2 hn' (by rw [oldOf_new]; exact hd)
        (fun m hm => by
          rw [← mem_oldOf, oldOf_new, mem_oldOf] at hm
          obtain ⟨c, hc⟩ := hal m (List.mem_cons_of_mem _ hm)
          exact ⟨c, sp hc⟩)
        (fun m a es hm => hu m a es (back m a es hm))
      have hmem : TCon.old k ∈ q ++ added.map .new ↔ TCon.old k ∈ q := by rw [← mem_oldOf, oldOf_new, mem_oldOf]
      rw [hmem] at i1 i2
      constructor
      · rintro ⟨a, es, hm⟩ hq
        rcases List.mem_cons.mp hq with hq | hq
        · cases hq
        · exact List.mem_cons_of_mem _ (i1 ⟨a, es, sp hm⟩ hq)
      · intro hm
        rw [← f0, ← f1 hnm]
        exact i2 (hm.imp (fun hm a es e => hm a es (back k a es e)) (fun hm h => hm (List.mem_cons_of_mem _ h)))

theorem flag_end {steps : Nat} {v kept : List TCon} {b : Bool} (h : solverTranslate cc tc fuel steps v W = .ok ((true, kept), W'))
    (hp : ∀ tr W1, Translated cc tc fuel v W tr W1 → W1.book.translateMinimize = b) : W'.book.translateMinimize = b := by
  unfold solverTranslate at h
  obtain ⟨r, W1, h1, h2⟩ := bind_iff.mp h
  cases r with
  | none => injection h2 with h2; injection h2 with h2; injection h2 with h2; cases h2
  | some p =>
    obtain ⟨v', j'⟩ := p
    obtain ⟨tr, t1, -, -⟩ := translateLoop_spec steps 0 0 [] [] v rfl rfl (by simpa using h1)
    have k1 := hp tr W1 t1
    simp only at h2
    obtain ⟨u, W2, h3, h4⟩ := bind_iff.mp h2
    have k2 : W2.book.translateMinimize = b := by
      by_cases hj : j' < v'.length
      · simp only [whenS, hj, decide_true, if_true] at h3
        obtain rfl := modify_iff.mp h3
        exact k1
      · simp only [whenS, hj, decide_false, Bool.false_eq_true, if_false] at h3
        obtain ⟨-, rfl⟩ := pure_iff.mp h3
        exact k1
    by_cases ho : tc.orderClauses = true
    · rw [if_pos ho] at h4
      obtain ⟨Wx, W3, h5, h6⟩ := bind_iff.mp h4
      obtain ⟨e1, e2⟩ := get_iff.mp h5
      rw [e1, e2] at h6
      obtain ⟨ret, W4, h7, h8⟩ := bind_iff.mp h6
      obtain ⟨h10, rfl⟩ := pure_iff.mp h8
      have : W'.book = W2.book := congrArg Prod.snd (fr_allOrderClauses.fr _ _ _ h7)
      rw [this]; exact k2
    · rw [if_neg ho] at h4
      obtain ⟨h8, rfl⟩ := pure_iff.mp h4
      exact k2

theorem trans_quiet {op : Op} {r : Bool} (ht : transOp cc op) (hx : op.exec W = .ok (r, W')) (hq : W.noChanges) : W'.noChanges := by
  have key : ∀ {α : Type} {x : SM α} {a : α}, Fr x → x W = .ok (a, W') → W'.noChanges := fun hf h => quiet_frame (hf.fr _ _ _ h) hq
  cases op with
  | addVar lo hi' =>
    obtain ⟨_, W1, h1, h2⟩ := SM.bind_ok hx
    obtain ⟨-, rfl⟩ := pure_iff.mp h2
    obtain ⟨v, h3⟩ := discard_iff.mp h1
    injection h3 with h3
    obtain ⟨-, rfl⟩ := Prod.mk.inj h3
    exact hq
  | literal c v x =>
    obtain ⟨_, W1, h1, h2⟩ := SM.bind_ok hx
    obtain ⟨-, rfl⟩ := pure_iff.mp h2
    obtain ⟨v, h3⟩ := discard_iff.mp h1
    exact key fr_getLiteral h3
  | addConstraint c =>
    obtain ⟨_, W1, h1, h2⟩ := SM.bind_ok hx
    obtain ⟨-, rfl⟩ := pure_iff.mp h2
    obtain ⟨v, h3⟩ := discard_iff.mp h1
    exact add_quiet h3 hq
  | removeConstraints rem =>
    obtain ⟨_, W1, h1, h2⟩ := SM.bind_ok hx
    obtain ⟨-, rfl⟩ := pure_iff.mp h2
    obtain rfl := modify_iff.mp h1
    exact hq
  | fresh => exact key fr_fresh hx
  | post e => exact key fr_post hx
  | enable => rw [(enable_iff.mp hx).2]; exact hq
  | _ => exact ht.elim

theorem fed_quiet {ops : List Op} {ts ts' : List Told} (h : Fed ops W ts W' ts') : (∀ op ∈ ops, transOp cc op) → W.noChanges → W'.noChanges := by
  induction h with
  | nil => exact fun _ h => h
  | cons hp hf hx _ ih => exact fun ht hq => ih (fun o ho => ht o (List.mem_cons_of_mem _ ho)) (trans_quiet (ht _ List.mem_cons_self) hx hq)

theorem states_news {q : List TCon} {tr : List (Nat × Bool)} (hs : SortOk tc) (h : Translated cc tc fuel q W tr W') : Going W → News W q →
    ∀ (n : Nat) a es b, (states W')[n]? = some (Constr.minimize a es, b) → (states W)[n]? = some (Constr.minimize a es, b) := by
  induction h with
  | nil W => exact fun _ _ _ _ _ _ h => h
  | @cons t q W n W1 b added W2 tr W3 h1 h2 h3 ih =>
    intro hg hn m a es b' hm
    obtain ⟨g1, g2, s1, s2, hn', c0, hc0, ha0⟩ := news_step hs hg hn h1 h2
    have := ih g2 hn' m a es b' hm
    rw [states_one h2] at this
    cases t with
    | old k => obtain ⟨-, rfl⟩ := pure_iff.mp h1; exact this
    | new c =>
      obtain ⟨-, e1⟩ := states_add h1
      obtain ⟨rr, es', hsum, -⟩ : ∃ r es, c = .sum TRUE_LIT r es ∧ _ := hn c List.mem_cons_self
      rw [e1, List.getElem?_append] at this
      split_ifs at this with hl
      · exact this
      · have := List.mem_of_getElem? this
        rw [List.mem_singleton, hsum] at this
        cases this

theorem oldOf_map {ns : List Nat} : oldOf (ns.map .old) = ns := by
  induction ns with
  | nil => rfl
  | cons n ns ih =>
    show n :: oldOf (ns.map .old) = _
    rw [ih]

theorem stateNumbers_eq {v : List TCon} : stateNumbers v = oldOf v := rfl

theorem Main.translate {ns : List Nat} {m : Option Nat} {steps : Nat} {kept : List TCon} (hs : SortOk tc) (h : Main W ns m) (hi : Informed W)
    (hx : solverTranslate cc tc fuel steps (ns.map .old) W = .ok ((true, kept), W')) : Main W' (stateNumbers kept) (if W'.book.translateMinimize then none else m) := by
  have hq : Translatable W := ⟨h.sits.2, h.quiet.1, h.quiet.2, hi⟩
  have hm : ∀ n, TCon.old n ∈ ns.map TCon.old ↔ Alive W n := fun n => by rw [← h.listed n]; simp
  have hv : InQueue W (ns.map .old) := ⟨h.once.map (fun a b e => by injection e), hm, fun t ht => by
    obtain ⟨n, -, rfl⟩ := List.mem_map.mp ht; exact ⟨n, rfl⟩⟩
  obtain ⟨c1, c2, c3⟩ := C74_calls hs h.sits.1 hq hv hx
  obtain ⟨ops, k1, k2⟩ := c1 []
  obtain ⟨r1, r2, r3, -⟩ := C38_remaining (by rw [oldOf_map]; exact h.once) hm hx
  obtain ⟨tr, W1, t1, rfl, -, t3, -⟩ := C38_removed hx
  have hg := going_start h.sits.1 hq
  have hn := lists_news hv
  have hfl : W'.book.translateMinimize = W1.book.translateMinimize := flag_end hx (fun tr' W1' ht => by rw [(translated_unique t1 ht).2])
  have hl : ∀ n ∈ oldOf (ns.map .old), n < (states W).length := by
    rw [oldOf_map]
    intro n hn
    obtain ⟨c, hc⟩ := (h.listed n).mp hn
    exact (List.getElem?_eq_some_iff.mp hc).1
  obtain ⟨new, -, n2, -⟩ := translated_numbers t1 (by rw [oldOf_map]; exact h.once) hl
  have uniq : ∀ n b b', (n, b) ∈ tr → (n, b') ∈ tr → b = b' := fun n b b' h1 h2 => by
    have := List.inj_on_of_nodup_map n2 h1 h2 rfl
    exact congrArg Prod.snd this
  have flag : ∀ k a es, (states W)[k]? = some (.minimize a es, true) → (k, W'.book.translateMinimize) ∈ tr := fun k a es hk => by
    rw [hfl]
    refine (flag_chain (k := k) hs t1 hg hn (by rw [oldOf_map]; exact h.once) (fun n hn => (hm n).mp hn) (fun n a' es' hn => ?_)).1 ⟨a, es, hk⟩ ((hm k).mpr ⟨_, hk⟩)
    have e1 := (h.objective n).mpr ⟨a', es', hn⟩
    have e2 := (h.objective k).mpr ⟨a, es, hk⟩
    rw [e1] at e2
    injection e2
  refine ⟨⟨c2, c3⟩, fed_quiet k1 k2 h.quiet, fed_ia k1 (fun op ho n e => ?_) h.ia, ?_, fun n => ?_, fun n => ?_⟩
  · have := k2 op ho
    rw [e] at this
    exact this
  · rw [stateNumbers_eq]
    have : ((oldOf (keptOf tr)).map TCon.old).Nodup := by
      have e : ∀ {v : List TCon}, (∀ t ∈ v, ∃ n, t = .old n) → (oldOf v).map TCon.old = v := by
        intro v
        induction v with
        | nil => intro _; rfl
        | cons t v ih =>
          intro hv
          obtain ⟨n, rfl⟩ := hv t List.mem_cons_self
          show TCon.old n :: (oldOf v).map TCon.old = _
          rw [ih (fun t ht => hv t (List.mem_cons_of_mem _ ht))]
      rw [e r3]; exact r1
    exact this.of_map _
  · rw [stateNumbers_eq, mem_oldOf, r2 n]
  · constructor
    · intro hh
      cases hb : W'.book.translateMinimize with
      | true => rw [hb] at hh; cases hh
      | false =>
        rw [hb] at hh
        obtain ⟨a, es, hk⟩ := (h.objective n).mp hh
        have hf := flag n a es hk
        rw [hb] at hf
        refine ⟨a, es, ?_⟩
        rw [t3 n, chain_states t1 hk]
        have : (n, true) ∉ tr := fun h => by cases uniq _ _ _ hf h
        simp [this]
    · rintro ⟨a, es, hk⟩
      rw [t3 n] at hk
      obtain ⟨p, hp, e⟩ := Option.map_eq_some_iff.mp hk
      obtain ⟨c, b⟩ := p
      simp only [Prod.mk.injEq, Bool.and_eq_true, Bool.not_eq_true', decide_eq_false_iff_not] at e
      obtain ⟨rfl, rfl, hnt⟩ := e
      have hw := states_news hs t1 hg hn n a es true hp
      have hf := flag n a es hw
      cases hb : W'.book.translateMinimize with
      | true => rw [hb] at hf; exact absurd hf hnt
      | false => simpa using (h.objective n).mpr ⟨a, es, hw⟩

/-! ### Other threads -/

theorem each_sits {f : SM Unit} {op : Op} (hf : op.exec = (do f; return true)) (hp : ∀ W, W.book.levels.length = 1 → op.pre W) (h1 : ∀ cc ls, op ≠ .propagate cc ls) (h2 : op ≠ .undo) :
    ∀ {Ws Ws' : List World}, eachSolver f Ws = .ok Ws' → (∀ o ∈ Ws, Sits o) → ∀ o ∈ Ws', Sits o
  | [], Ws', h, _ => by injection h with h; subst h; intro o ho; cases ho
  | W :: Ws, Ws', h, hs => by
    obtain ⟨p, a1, a2⟩ := res_bind h
    obtain ⟨u, W1⟩ := p
    obtain ⟨Ws1, a3, a4⟩ := res_bind a2
    injection a4 with a4
    subst a4
    intro o ho
    rcases List.mem_cons.mp ho with rfl | ho
    · have hw := hs W List.mem_cons_self
      refine hw.step (op := op) (r := true) (hp W hw.2) ?_ h1 h2
      rw [hf, bind_iff]
      exact ⟨u, _, a1, rfl⟩
    · exact each_sits hf hp h1 h2 a3 (fun o ho => hs o (List.mem_cons_of_mem _ ho)) o ho

theorem copy_equal {target master W : World} (ht : Sits target) (hm : Sits master)
    (h : copyState { target with log := master.log, nextLit := master.nextLit, book.translateMinimize := master.book.translateMinimize } master = .ok W) : W = master := by
  have e1 := ht.1.wi.levels ht.2
  have e2 := hm.1.wi.levels hm.2
  unfold copyState at h
  rw [show ({ target with log := master.log, nextLit := master.nextLit, book.translateMinimize := master.book.translateMinimize } : World).book.levels = [baseLvl] from e1, e2] at h
  dsimp only at h
  obtain ⟨ia, h3, h⟩ := res_bind h
  obtain ⟨ws, h4, h⟩ := res_bind h
  obtain ⟨rs, h5, h⟩ := res_bind h
  obtain ⟨td, h6, h⟩ := res_bind h
  have h3 := copyList_ok h3
  have h4 := copyVarWatches_ok h4
  have h5 := copyRemoved_ok h5
  have h6 := copyList_ok h6
  subst h3 h4 h5 h6
  have hc : master.book.cs.map CState.copy = master.book.cs := by
    conv_rhs => rw [← List.map_id master.book.cs]
    exact List.map_congr_left (fun c hc => copy_tidy (hm.1.tidy c hc))
  injection h with h
  subst h
  obtain ⟨mv, ml, mf, mn, mg, mb⟩ := master
  obtain ⟨b1, b2, b3, b4, b5, b6, b7, b8, b9, b10, b11, b12, b13, b14, b15, b16, b17⟩ := mb
  simp only at hc e2
  simp only [hc, e2]

theorem copySolvers_all {master : World} (hm : Sits master) : ∀ {Ws Ws' : List World}, copySolvers master Ws = .ok Ws' → (∀ o ∈ Ws, Sits o) → Ws' = List.replicate Ws.length master
  | [], Ws', h, _ => by injection h with h; subst h; rfl
  | W :: Ws, Ws', h, hs => by
    obtain ⟨W1, a1, a2⟩ := res_bind h
    obtain ⟨Ws1, a3, a4⟩ := res_bind a2
    injection a4 with a4
    subst a4
    rw [copy_equal (hs W List.mem_cons_self) hm a1, copySolvers_all hm a3 (fun o ho => hs o (List.mem_cons_of_mem _ ho))]
    rfl

theorem init_sits {n : Int} (h : 1 < n) : Sits (World.init n) := ⟨⟨n, [], h, .nil _⟩, rfl⟩

theorem resize_sits {n : Nat} {l : Lit} {os : List World} (hl : 1 < l) (h : ∀ o ∈ os, Sits o) : (resizeSolvers n l os).length = n - 1 ∧ ∀ o ∈ resizeSolvers n l os, Sits o := by
  unfold resizeSolvers
  refine ⟨by simp; omega, fun o ho => ?_⟩
  rcases List.mem_append.mp (List.mem_of_mem_take ho) with ho | ho
  · exact h o ho
  · rw [(List.mem_replicate.mp ho).2]; exact init_sits hl

end Clingcon
