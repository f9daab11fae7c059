import Verif.Proof.SafeOps
import Verif.Proof.SafeCalls
import Verif.Proof.Justify
import Verif.Proof.Sum
import Verif.Spec.Responsive

/-! The functions for linear constraints return: no assertion fails. -/
set_option linter.unusedSimpArgs false
set_option linter.unusedVariables false
namespace Clingcon
open Spec VarState

variable {α γ : Type} {W W0 W' : World} {cc : CC}

/-- The function returns, and the result satisfies the property. -/
def Yes (x : SM α) (Q : α → World → Prop) (W : World) : Prop := ∃ a W', x W = .ok (a, W') ∧ Q a W'

theorem Yes.bind {x : SM α} {f : α → SM γ} {Q : α → World → Prop} {R : γ → World → Prop} (hx : Yes x Q W)
    (hf : ∀ a W', x W = .ok (a, W') → Q a W' → Yes (f a) R W') : Yes (x >>= f) R W := by
  obtain ⟨a, W1, h1, q⟩ := hx
  obtain ⟨b, W2, h2, r⟩ := hf a W1 h1 q
  exact ⟨b, W2, bind_iff.mpr ⟨a, W1, h1, h2⟩, r⟩

theorem Yes.step {x : SM α} {f : α → SM γ} {R : γ → World → Prop} {a : α} {W1 : World} (hx : x W = .ok (a, W1)) (hf : Yes (f a) R W1) : Yes (x >>= f) R W := by
  obtain ⟨b, W2, h2, r⟩ := hf
  exact ⟨b, W2, bind_iff.mpr ⟨a, W1, hx, h2⟩, r⟩

theorem Yes.stepU {x : SM Unit} {f : Unit → SM γ} {R : γ → World → Prop} {W1 : World} (hx : x W = .ok ((), W1)) (hf : Yes (f ()) R W1) : Yes (x >>= f) R W :=
  Yes.step hx hf

theorem Yes.pure {a : α} {Q : α → World → Prop} (h : Q a W) : Yes (Pure.pure a : SM α) Q W := ⟨a, W, rfl, h⟩
theorem Yes.ok {x : SM α} {Q : α → World → Prop} (h : Yes x Q W) : Ok x W := ⟨_, _, h.choose_spec.choose_spec.1⟩
theorem Yes.post {x : SM α} {Q R : α → World → Prop} (h : Yes x Q W) (hr : ∀ a W', x W = .ok (a, W') → Q a W' → R a W') : Yes x R W := by
  obtain ⟨a, W1, h1, q⟩ := h
  exact ⟨a, W1, h1, hr a W1 h1 q⟩

/-! ### States while constraints are propagated -/

/-- There are no stacks of bounds. -/
def Level0 (W : World) : Prop := ∀ vs ∈ (frame W).1, vs.lowerStack = [] ∧ vs.upperStack = []

/-- The properties used while linear constraints are propagated. -/
structure Rd (cc : CC) (W : World) : Prop where
  ti : TI W
  nest : AllNested W
  flat : cc.level = 0 → Level0 W
  bl : cc.level ≠ 0 → BoundLits cc W
  out : cc.level ≠ 0 → OutLits cc W
  new : cc.level ≠ 0 → NewLits cc W
  facts : cc.level ≠ 0 → W.factmap = []

theorem Level0.boundLits (h : Level0 W) : BoundLits cc W := by
  intro v vs hv
  have : vs.lowerStack = [] ∧ vs.upperStack = [] := h vs.bounds (List.mem_map_of_mem (List.mem_of_getElem? hv))
  unfold VarState.minBound VarState.maxBound
  rw [this.1, this.2]
  exact ⟨fun h => by simp at h, fun h => by simp at h⟩

theorem Rd.bnd (h : Rd cc W) : BoundLits cc W := by
  by_cases h0 : cc.level = 0
  · exact (h.flat h0).boundLits
  · exact h.bl h0

theorem newLits_event (h : NewLits cc W) {e : SEv} (he : ∀ l, e ≠ .lit l) : NewLits cc { W with log := e :: W.log } := by
  intro new a ha hn
  have := h (new ++ [e]) a ha (fun hm => by
    rcases List.mem_append.mp hm with hm | hm
    · exact hn hm
    · exact he _ (List.mem_singleton.mp hm).symm)
  rwa [List.append_assoc] at this

theorem outLits_event (h : OutLits cc W) (hm : EnvMono cc) {e : SEv} : OutLits cc { W with log := e :: W.log } := by
  intro v vs hv k l hl ho
  have := h v vs hv k l hl ho
  obtain ⟨t, ht⟩ := Option.ne_none_iff_exists'.mp this
  show cc.value (e :: W.log) l ≠ none
  rw [hm.value ht]
  simp

theorem Rd.event (h : Rd cc W) (hm : EnvMono cc) {e : SEv} (he : ∀ l, e ≠ .lit l) : Rd cc { W with log := e :: W.log } where
  ti := h.ti.other rfl rfl rfl
  nest := h.nest
  flat := h.flat
  bl h0 := boundLits_log (new := [e]) hm (h.bl h0)
  out h0 := outLits_event (h.out h0) hm
  new h0 := newLits_event (h.new h0) he
  facts := h.facts

theorem Rd.book (h : Rd cc W) (b : Book) : Rd cc { W with book := b } where
  ti := h.ti.other rfl rfl rfl
  nest := h.nest
  flat := h.flat
  bl := h.bl
  out := h.out
  new := h.new
  facts := h.facts

theorem set_same {v u : Nat} {vs vs' us : VarState} {T : List VarState} (hv : T[v]? = some vs) (he : vs' = { vs with table := vs'.table })
    (h : (T.set v vs')[u]? = some us) : (u = v ∧ us = vs') ∨ T[u]? = some us := by
  by_cases hu : u = v
  · subst hu
    rw [List.getElem?_set_self (List.getElem?_eq_some_iff.mp hv).1] at h
    injection h with h
    exact Or.inl ⟨rfl, h.symm⟩
  · rw [List.getElem?_set_ne (fun e => hu e.symm)] at h
    exact Or.inr h

/-- New order literals are for values inside of the bounds, or they are assigned later. -/
theorem GotLit.outLits {v : Nat} {x l : Int} (h : GotLit W v x l W') (ho : OutLits cc W) (hm : EnvMono cc) {log : List SEv} (hs : W'.log <:+ log)
    (hi : (∀ vs, W.vars[v]? = some vs → vs.lower ≤ x + 1 ∧ x ≤ vs.upper) ∨ cc.value log l ≠ none) : OutLits cc { W' with log := log } := by
  have keep : ∀ m, cc.value W.log m ≠ none → cc.value log m ≠ none := by
    intro m hn
    obtain ⟨t, ht⟩ := Option.ne_none_iff_exists'.mp hn
    rw [value_suffix hm (h.suffix.trans hs) ht]
    simp
  intro u us hu k m hl hout
  cases h with
  | low => exact keep m (ho u us hu k m hl hout)
  | high => exact keep m (ho u us hu k m hl hout)
  | old vs vs' l hv h1 h2 hmem ht =>
    rcases set_same hv ht.eq hu with ⟨rfl, rfl⟩ | hu
    · rw [ht.eq] at hout
      exact keep m (ho u vs hv k m ((ht.mem _ _).mp hl) hout)
    · exact keep m (ho u us hu k m hl hout)
  | new vs vs' l hv h1 h2 hmem ht hlit =>
    rcases set_same hv ht.eq hu with ⟨rfl, rfl⟩ | hu
    · rw [ht.eq] at hout
      have := (ht.mem _ _).mp hl
      split_ifs at this with hk
      · subst this
        subst hk
        rcases hi with hi | hi
        · have := hi vs hv
          dsimp only at hout
          omega
        · exact hi
      · exact keep m (ho u vs hv k m this hout)
    · exact keep m (ho u us hu k m hl hout)

theorem GotLit.newLits {v : Nat} {x l : Int} (h : GotLit W v x l W') (hn : NewLits cc W) : NewLits cc W' := by
  cases h with
  | low => exact hn
  | high => exact hn
  | old => exact hn
  | new vs vs' l hv h1 h2 hmem ht hlit =>
    intro new a ha hnew
    have := hn (new ++ [.watch (-l), .watch l, .order l v x, .lit W.nextLit]) a (by dsimp only at ha; omega) (fun hm => by
      rcases List.mem_append.mp hm with hm | hm
      · exact hnew hm
      · simp at hm
        dsimp only at ha
        omega)
    rwa [List.append_assoc] at this

theorem GotLit.ne0 {v : Nat} {x l : Int} (h : GotLit W v x l W') (ti : TI W) : l ≠ 0 := by
  have hp := ti.pos
  cases h with
  | low => decide
  | high => decide
  | old vs vs' l hv h1 h2 hm hs => exact with_nonzero (ti.wf _ _ hv) hm
  | new vs vs' l hv h1 h2 hm hs hl => rcases hl with rfl | rfl <;> omega

theorem Rd.got {v : Nat} {x l : Int} (h : Rd cc W) (hm : EnvMono cc) (g : GotLit W v x l W') (hf : frame W' = frame W)
    (hi : ∀ vs, W.vars[v]? = some vs → vs.lower ≤ x + 1 ∧ x ≤ vs.upper) : Rd cc W' where
  ti := g.ti h.ti
  nest := by unfold AllNested; rw [hf]; exact h.nest
  flat h0 := by unfold Level0; rw [hf]; exact h.flat h0
  bl h0 := g.boundLits hm (h.bl h0)
  out h0 := g.outLits (h.out h0) hm List.suffix_rfl (Or.inl hi)
  new h0 := g.newLits (h.new h0)
  facts h0 := by rw [g.factmap]; exact h.facts h0

/-- A literal outside of the bounds that is assigned by a clause. -/
theorem Rd.gotOut {v : Nat} {x l : Int} {c : List Int} (h : Rd cc W) (hm : EnvMono cc) (g : GotLit W v x l W') (hf : frame W' = frame W)
    (hi : cc.value (.clause c :: W'.log) l ≠ none) : Rd cc { W' with log := .clause c :: W'.log } where
  ti := (g.ti h.ti).other rfl rfl rfl
  nest := by have : AllNested W' := by (unfold AllNested; rw [hf]; exact h.nest)
             exact this
  flat h0 := by have : Level0 W' := by (unfold Level0; rw [hf]; exact h.flat h0)
                exact this
  bl h0 := boundLits_log (new := [.clause c]) hm (g.boundLits hm (h.bl h0))
  out h0 := g.outLits (h.out h0) hm (List.suffix_cons _ _) (Or.inr hi)
  new h0 := newLits_event (g.newLits (h.new h0)) (fun _ => by simp)
  facts h0 := g.factmap.trans (h.facts h0)

theorem Rd.getLit {v : Nat} {vs : VarState} {x : Int} (h : Rd cc W) (hv : W.vars[v]? = some vs) :
    Yes (getLiteral cc v x) (fun l W' => GotLit W v x l W' ∧ frame W' = frame W) W := by
  obtain ⟨l, W', hx⟩ := Ok.getLiteral (cc := cc) (x := x) (h.ti.wf _ _ hv) h.ti.pos hv
  exact ⟨l, W', hx, getLiteral_eff h.ti.wf (by have := h.ti.pos; omega) hx, fr_getLiteral.fr _ _ _ hx⟩

/-- The state of a variable after a call that changes no bounds. -/
theorem frame_var {v : Nat} {vs : VarState} (hf : frame W' = frame W) (hv : W.vars[v]? = some vs) : ∃ vs', W'.vars[v]? = some vs' ∧ vs'.bounds = vs.bounds := by
  have h1 : (frame W').1[v]? = some vs.bounds := by rw [hf]; simp [frame, hv]
  simpa [frame] using h1

theorem bounds_parts {vs vs' : VarState} (h : vs'.bounds = vs.bounds) : vs'.lower = vs.lower ∧ vs'.upper = vs.upper ∧ vs'.minBound = vs.minBound ∧ vs'.maxBound = vs.maxBound :=
  ⟨by have := congrArg VarState.lower h; exact this, by have := congrArg VarState.upper h; exact this,
    by have := congrArg VarState.minBound h; exact this, by have := congrArg VarState.maxBound h; exact this⟩

theorem nested_range {vs : VarState} (h : Nested vs) : vs.minBound ≤ vs.lower ∧ vs.upper ≤ vs.maxBound := by
  have h1 := (List.pairwise_cons.mp h.low).1
  have h2 := (List.pairwise_cons.mp h.upp).1
  unfold VarState.minBound VarState.maxBound
  constructor
  · split
    · exact le_rfl
    · rename_i p hp
      exact h1 _ (List.mem_map_of_mem (List.mem_of_getLast? hp))
  · split
    · exact le_rfl
    · rename_i p hp
      exact h2 _ (List.mem_map_of_mem (List.mem_of_getLast? hp))

theorem one_true (hr : Responsive cc) {log : List SEv} : cc.isTrue log TRUE_LIT = true ∧ cc.isFalse log (-TRUE_LIT) = true := by
  have : cc.value log TRUE_LIT = some true := by
    unfold CC.value TRUE_LIT
    rw [if_pos (by decide)]
    exact hr.tt log
  have h1 : cc.isTrue log TRUE_LIT = true := by unfold CC.isTrue; rw [this]; rfl
  exact ⟨h1, by rw [isFalse_neg (by decide)]; exact h1⟩

theorem isFalse_suffix (hv : EnvMono cc) {a b : List SEv} {l : Int} (h : a <:+ b) (hl : cc.isFalse a l = true) : cc.isFalse b l = true := by
  unfold CC.isFalse at *
  simp only [beq_iff_eq] at *
  exact value_suffix hv h hl

/-! ### Clauses -/

/-- A clause with a single literal that is not false makes it true. -/
theorem unit_clause (hr : Responsive cc) (h0 : cc.level ≠ 0) {log : List SEv} {c : List Int} {l : Int} (ha : cc.accept (.clause c :: log) = true) (hl : l ∈ c)
    (hf : ∀ m ∈ c, m ≠ l → cc.isFalse log m = true) : cc.isTrue (.clause c :: log) l = true :=
  hr.clause h0 log c l hl ha (fun m hm hn => hr.mono.isFalse (hf m hm hn))

theorem unit_volatile (hr : Responsive cc) (h0 : cc.level ≠ 0) {log : List SEv} {c : List Int} {l : Int} (ha : cc.accept (.volatile c :: log) = true) (hl : l ∈ c)
    (hf : ∀ m ∈ c, m ≠ l → cc.isFalse log m = true) : cc.isTrue (.volatile c :: log) l = true :=
  hr.volatile h0 log c l hl ha (fun m hm hn => hr.mono.isFalse (hf m hm hn))

theorem not_both {log : List SEv} {l : Int} (h1 : cc.isTrue log l = true) (h2 : cc.isFalse log l = true) : False := by
  unfold CC.isTrue CC.isFalse at *
  simp only [beq_iff_eq] at *
  rw [h1] at h2
  cases h2

/-! ### Literals for bounds -/

/-- The order literal before the lower bound is false. -/
theorem Rd.lowerLit {v : Nat} {vs : VarState} {l : Int} (h : Rd cc W) (hr : Responsive cc) (hv : W.vars[v]? = some vs) (g : GotLit W v (vs.lower - 1) l W') :
    cc.isFalse W'.log l = true := by
  have hn := h.nest.get hv
  obtain ⟨n1, n2⟩ := nested_range hn
  have hle := hn.le
  have hb := (h.bnd v vs hv).1
  have look : ∀ us, W.vars[v]? = some us → us = vs := fun us hu => by rw [hv] at hu; injection hu with hu; exact hu.symm
  cases g with
  | low => exact (one_true hr).2
  | high us hu h1 h2 =>
    have := look us hu
    subst this
    omega
  | old us us' l hu h1 h2 hm ht =>
    have := look us hu
    subst this
    obtain ⟨m, hm', hf⟩ := hb (by omega)
    rw [with_unique (h.ti.wf _ _ hu) hm hm']
    exact hf
  | new us us' l hu h1 h2 hm ht hl =>
    have := look us hu
    subst this
    obtain ⟨m, hm', hf⟩ := hb (by omega)
    exact absurd hm' (hm m)

/-- The order literal for the upper bound is true. -/
theorem Rd.upperLit {v : Nat} {vs : VarState} {l : Int} (h : Rd cc W) (hr : Responsive cc) (hv : W.vars[v]? = some vs) (g : GotLit W v vs.upper l W') :
    cc.isTrue W'.log l = true := by
  have hn := h.nest.get hv
  obtain ⟨n1, n2⟩ := nested_range hn
  have hle := hn.le
  have hb := (h.bnd v vs hv).2
  have look : ∀ us, W.vars[v]? = some us → us = vs := fun us hu => by rw [hv] at hu; injection hu with hu; exact hu.symm
  cases g with
  | low us hu h1 =>
    have := look us hu
    subst this
    omega
  | high => exact (one_true hr).1
  | old us us' l hu h1 h2 hm ht =>
    have := look us hu
    subst this
    obtain ⟨m, hm', hf⟩ := hb (by omega)
    rw [with_unique (h.ti.wf _ _ hu) hm hm']
    exact hf
  | new us us' l hu h1 h2 hm ht hl =>
    have := look us hu
    subst this
    obtain ⟨m, hm', hf⟩ := hb (by omega)
    exact absurd hm' (hm m)

theorem orderLitGe_at {vs : VarState} (hw : vs.WF) {v l : Int} (h : (v, l) ∈ vs.with) : ∃ p, vs.orderLitGe v = some p ∧ p.1 = v := by
  obtain ⟨h1, h2⟩ := withGe_spec hw v
  have hm := (h2 v l).mpr ⟨le_rfl, h⟩
  unfold orderLitGe
  cases e : vs.withGe v with
  | nil => rw [e] at hm; cases hm
  | cons p t =>
    refine ⟨p, rfl, ?_⟩
    rw [e] at h1 hm h2
    have hp := ((h2 p.1 p.2).mp (List.mem_cons_self ..)).1
    rcases List.mem_cons.mp hm with rfl | hm
    · rfl
    · have := (List.pairwise_cons.mp h1).1 _ hm
      dsimp only at this
      omega

theorem orderLitLe_at {vs : VarState} (hw : vs.WF) {v l : Int} (h : (v, l) ∈ vs.with) : ∃ p, vs.orderLitLe v = some p ∧ p.1 = v := by
  obtain ⟨h1, h2⟩ := withLe_spec hw v
  have hm := (h2 v l).mpr ⟨le_rfl, h⟩
  unfold orderLitLe
  cases e : vs.withLe v with
  | nil => rw [e] at hm; cases hm
  | cons p t =>
    refine ⟨p, rfl, ?_⟩
    rw [e] at h1 hm h2
    have hp := ((h2 p.1 p.2).mp (List.mem_cons_self ..)).1
    rcases List.mem_cons.mp hm with rfl | hm
    · rfl
    · have := (List.pairwise_cons.mp h1).1 _ hm
      dsimp only at this
      omega

/-! ### Refined reasons -/

/-- The result of refining a reason: the literal is false, and the literal for the value `at` is not in the table. -/
structure Refd (cc : CC) (var : Nat) (co slack cur key gap : Int) (p : Bool × Int × Int × Int) (W : World) : Prop where
  rd : Rd cc W
  fls : p.1 = true → cc.isFalse W.log p.2.1 = true
  slk : p.2.2.1 = slack - co * (p.2.2.2 - cur)
  neg : p.2.2.1 < 0
  gap : p.2.2.2 ≠ gap → ∀ vs, W.vars[var]? = some vs → ∀ l, (key, l) ∉ vs.with

theorem Rd.refineLower {v : Nat} {vs : VarState} {co slack lr value : Int} (h : Rd cc W) (hr : Responsive cc) (h0 : cc.level ≠ 0) (hv : W.vars[v]? = some vs)
    (hc : 0 < co) (hs0 : slack < 0) (hf : cc.isFalse W.log lr = true) (hlt : value < vs.lower) (hs : slack - co * (value - vs.lower) < 0) :
    Yes (refineLower cc v co slack lr vs.lower value) (Refd cc v co slack vs.lower (value - 1) value) W := by
  have hw := h.ti.wf _ _ hv
  have look : ∀ us, W.vars[v]? = some us → us = vs := fun us hu => by rw [hv] at hu; injection hu with hu; exact hu.symm
  unfold Clingcon.refineLower
  refine Yes.step (getVar_iff.mpr ⟨hv, rfl⟩) ?_
  cases ho : vs.orderLitGe (value - 1) with
  | none =>
    refine Yes.pure ⟨h, fun _ => hf, by ring, hs0, fun _ us hu l hl => ?_⟩
    rw [look us hu] at hl
    obtain ⟨p, hp, -⟩ := orderLitGe_at hw hl
    rw [hp] at ho
    cases ho
  | some kl =>
    obtain ⟨k, l⟩ := kl
    obtain ⟨hm, hk⟩ := orderLitGe_mem hw ho
    have hgap : k ≠ value - 1 → ∀ us, W.vars[v]? = some us → ∀ l, (value - 1, l) ∉ us.with := by
      intro hne us hu l hl
      rw [look us hu] at hl
      obtain ⟨p, hp, e⟩ := orderLitGe_at hw hl
      rw [hp] at ho
      injection ho with ho
      subst ho
      exact hne e
    dsimp only
    split
    · rename_i hkc
      have hneg : slack - co * (k + 1 - vs.lower) < 0 := by nlinarith
      refine Yes.stepU (assertS_iff.mpr ⟨decide_eq_true hneg, rfl⟩) ?_
      refine Yes.step (qFalse_iff.mpr ⟨rfl, rfl⟩) ?_
      split
      · rename_i hlf
        exact Yes.pure ⟨h, fun _ => hlf, rfl, hneg, fun hne => hgap (fun e => hne (by show k + 1 = value; omega))⟩
      · rename_i hlf
        have hassn := h.out h0 v vs hv k l hm (Or.inl hkc)
        have ht : cc.isTrue W.log l = true := by
          unfold CC.isTrue
          unfold CC.isFalse at hlf
          cases hq : cc.value W.log l with
          | none => exact absurd hq hassn
          | some t => cases t with
            | true => rfl
            | false => rw [hq] at hlf; exact absurd rfl hlf
        refine Yes.step (qTrue_iff.mpr ⟨rfl, rfl⟩) (Yes.stepU (assertS_iff.mpr ⟨ht, rfl⟩) ?_)
        refine Yes.step (addClause_iff.mpr ⟨rfl, rfl⟩) (Yes.pure ⟨h.event hr.mono (fun _ => by simp), fun ha => ?_, rfl, hneg, ?_⟩)
        · exfalso
          have hln : l ≠ 0 := with_nonzero hw hm
          have hnf : cc.isFalse W.log (-l) = true := by rw [isFalse_neg hln]; exact ht
          have := unit_clause hr h0 ha (l := lr) (by simp) (fun m hm hn => by
            rcases List.mem_cons.mp hm with rfl | hm
            · exact absurd rfl hn
            · rw [List.mem_singleton.mp hm]; exact hnf)
          exact not_both this (hr.mono.isFalse hf)
        · exact fun hne => hgap (fun e => hne (by show k + 1 = value; omega))
    · rename_i hkc
      exact Yes.pure ⟨h, fun _ => hf, by ring, hs0, fun _ => hgap (by omega)⟩

theorem Rd.refineUpper {v : Nat} {vs : VarState} {co slack lr value : Int} (h : Rd cc W) (hr : Responsive cc) (h0 : cc.level ≠ 0) (hv : W.vars[v]? = some vs)
    (hc : co < 0) (hs0 : slack < 0) (hf : cc.isFalse W.log lr = true) (hlt : vs.upper < value) (hs : slack - co * (value - vs.upper) < 0) :
    Yes (refineUpper cc v co slack lr vs.upper value) (Refd cc v co slack vs.upper value value) W := by
  have hw := h.ti.wf _ _ hv
  have look : ∀ us, W.vars[v]? = some us → us = vs := fun us hu => by rw [hv] at hu; injection hu with hu; exact hu.symm
  unfold Clingcon.refineUpper
  refine Yes.step (getVar_iff.mpr ⟨hv, rfl⟩) ?_
  cases ho : vs.orderLitLe value with
  | none =>
    refine Yes.pure ⟨h, fun _ => hf, by ring, hs0, fun _ us hu l hl => ?_⟩
    rw [look us hu] at hl
    obtain ⟨p, hp, -⟩ := orderLitLe_at hw hl
    rw [hp] at ho
    cases ho
  | some kl =>
    obtain ⟨k, l⟩ := kl
    obtain ⟨hm, hk⟩ := orderLitLe_mem hw ho
    have hln : l ≠ 0 := with_nonzero hw hm
    have hgap : k ≠ value → ∀ us, W.vars[v]? = some us → ∀ l, (value, l) ∉ us.with := by
      intro hne us hu l hl
      rw [look us hu] at hl
      obtain ⟨p, hp, e⟩ := orderLitLe_at hw hl
      rw [hp] at ho
      injection ho with ho
      subst ho
      exact hne e
    dsimp only
    split
    · rename_i hkc
      have hneg : slack - co * (k - vs.upper) < 0 := by nlinarith
      refine Yes.stepU (assertS_iff.mpr ⟨decide_eq_true hneg, rfl⟩) ?_
      refine Yes.step (qFalse_iff.mpr ⟨rfl, rfl⟩) ?_
      split
      · rename_i hlf
        exact Yes.pure ⟨h, fun _ => hlf, rfl, hneg, fun hne => hgap hne⟩
      · rename_i hlf
        have hassn := h.out h0 v vs hv k l hm (Or.inr hkc)
        rw [isFalse_neg hln] at hlf
        have ht : cc.isFalse W.log l = true := by
          unfold CC.isFalse
          unfold CC.isTrue at hlf
          cases hq : cc.value W.log l with
          | none => exact absurd hq hassn
          | some t => cases t with
            | false => rfl
            | true => rw [hq] at hlf; exact absurd rfl hlf
        refine Yes.step (qTrue_iff.mpr ⟨rfl, rfl⟩) (Yes.stepU (assertS_iff.mpr ⟨by rw [isTrue_neg hln]; exact ht, rfl⟩) ?_)
        refine Yes.step (addClause_iff.mpr ⟨rfl, rfl⟩) (Yes.pure ⟨h.event hr.mono (fun _ => by simp), fun ha => ?_, rfl, hneg, fun hne => hgap hne⟩)
        exfalso
        have := unit_clause hr h0 ha (l := lr) (by simp) (fun m hm hn => by
          rcases List.mem_cons.mp hm with rfl | hm
          · exact absurd rfl hn
          · rw [List.mem_singleton.mp hm]; exact ht)
        exact not_both this (hr.mono.isFalse hf)
    · rename_i hkc
      exact Yes.pure ⟨h, fun _ => hf, by ring, hs0, fun _ => hgap (by omega)⟩

/-- The result of computing a reason. -/
structure Rsn (cc : CC) (p : Bool × Int × Int) (W : World) : Prop where
  neg : p.2.2 < 0
  rd : p.1 = true → Rd cc W
  fls : p.1 = true → cc.isFalse W.log p.2.1 = true

theorem value_atom {a b : List SEv} {l : Int} (h : cc.atom a l.natAbs = cc.atom b l.natAbs) : cc.value a l = cc.value b l := by
  unfold CC.value
  rw [h]

/-- A literal that has just been introduced is not assigned. -/
theorem Rd.fresh {v : Nat} {x l : Int} (h : Rd cc W) (hr : Responsive cc) (h0 : cc.level ≠ 0) (hl : l = W.nextLit ∨ l = -W.nextLit) :
    cc.value (.watch (-l) :: .watch l :: .order l v x :: .lit W.nextLit :: W.log) l = none := by
  have hp := h.ti.pos
  have := h.new h0 [] l.natAbs (by omega) (fun hm => by cases hm)
  rw [List.nil_append] at this
  have e : cc.value (.watch (-l) :: .watch l :: .order l v x :: .lit W.nextLit :: W.log) l = cc.value W.log l := by
    apply value_atom
    rw [(hr.still _ _).2.1, (hr.still _ _).2.1, (hr.still _ _).2.2, (hr.still _ _).1]
  rw [e]
  unfold CC.value
  rw [this]
  split <;> rfl

theorem none_false {log : List SEv} {l : Int} (h : cc.value log l = none) : cc.isTrue log l = false ∧ cc.isFalse log l = false := by
  unfold CC.isTrue CC.isFalse
  rw [h]
  exact ⟨rfl, rfl⟩

theorem false_some {log : List SEv} {l : Int} (h : cc.isFalse log l = true) : cc.value log l ≠ none := fun e => by
  rw [(none_false e).2] at h
  cases h

theorem true_some {log : List SEv} {l : Int} (h : cc.isTrue log l = true) : cc.value log l ≠ none := fun e => by
  rw [(none_false e).1] at h
  cases h

theorem false_not_true {log : List SEv} {l : Int} (h : cc.isFalse log l = true) : cc.isTrue log l = false := by
  cases e : cc.isTrue log l with
  | false => rfl
  | true => exact (not_both e h).elim

theorem Refd.introduceLower {v : Nat} {vs : VarState} {co slack value : Int} {p : Bool × Int × Int × Int} (hp : Refd cc v co slack vs.lower (value - 1) value p W)
    (hr : Responsive cc) (h0 : cc.level ≠ 0) (hv : W.vars[v]? = some vs) (hlt : value < vs.lower) (hs : slack - co * (value - vs.lower) < 0) :
    Yes (introduceLower cc v co value p) (Rsn cc) W := by
  have hn := hp.rd.nest.get hv
  obtain ⟨n1, n2⟩ := nested_range hn
  have hle := hn.le
  have look : ∀ us, W.vars[v]? = some us → us = vs := fun us hu => by rw [hv] at hu; injection hu with hu; exact hu.symm
  unfold Clingcon.introduceLower
  refine Yes.step (qLitLevel_iff.mpr ⟨rfl, rfl⟩) ?_
  split
  · rename_i hc
    simp only [Bool.and_eq_true, decide_eq_true_eq] at hc
    have hs' : p.2.2.1 - co * (value - p.2.2.2) < 0 := by
      rw [hp.slk]
      nlinarith
    refine Yes.stepU (assertS_iff.mpr ⟨decide_eq_true hs', rfl⟩) ?_
    refine Yes.bind (hp.rd.getLit hv) (fun l W1 _ hg => ?_)
    obtain ⟨g, hf⟩ := hg
    have hgap := hp.gap (by omega)
    have hfl := hp.fls hc.1.1.1
    have hfl1 := isFalse_suffix hr.mono g.suffix hfl
    have ht1 := g.ti hp.rd.ti
    cases g with
    | low us hu h1 =>
      refine Yes.step (qTrue_iff.mpr ⟨rfl, rfl⟩) (Yes.stepU (assertS_iff.mpr ⟨?_, rfl⟩) (Yes.step (qFalse_iff.mpr ⟨rfl, rfl⟩) ?_))
      · rw [false_not_true (one_true hr).2]; rfl
      rw [if_pos (one_true hr).2]
      exact Yes.pure ⟨hs', fun _ => hp.rd, fun _ => (one_true hr).2⟩
    | high us hu h1 h2 => rw [look us hu] at h2; omega
    | old us us' l hu h1 h2 hm ht => exact absurd hm (hgap us hu l)
    | new us us' l hu h1 h2 hm ht hl =>
      have hnone := hp.rd.fresh (v := v) (x := value - 1) hr h0 hl
      refine Yes.step (qTrue_iff.mpr ⟨rfl, rfl⟩) (Yes.stepU (assertS_iff.mpr ⟨?_, rfl⟩) (Yes.step (qFalse_iff.mpr ⟨rfl, rfl⟩) ?_))
      · rw [(none_false hnone).1]; rfl
      rw [(none_false hnone).2, if_neg (by simp)]
      refine Yes.step (addClause_iff.mpr ⟨rfl, rfl⟩) (Yes.pure ?_)
      have hln : l ≠ 0 := by have := hp.rd.ti.pos; rcases hl with rfl | rfl <;> omega
      have key : cc.accept (.clause [p.2.1, -l] :: .watch (-l) :: .watch l :: .order l v (value - 1) :: .lit W.nextLit :: W.log) = true →
          cc.isFalse (.clause [p.2.1, -l] :: .watch (-l) :: .watch l :: .order l v (value - 1) :: .lit W.nextLit :: W.log) l = true := by
        intro ha
        have := unit_clause hr h0 ha (l := -l) (by simp) (fun m hm hn => by
          rcases List.mem_cons.mp hm with rfl | hm
          · exact hfl1
          · exact absurd (List.mem_singleton.mp hm) hn)
        rwa [isTrue_neg hln] at this
      exact ⟨hs', fun ha => hp.rd.gotOut hr.mono (.new us us' l hu h1 h2 hm ht hl) hf (false_some (key ha)), key⟩
  · exact Yes.pure ⟨hp.neg, fun _ => hp.rd, hp.fls⟩

theorem Refd.introduceUpper {v : Nat} {vs : VarState} {co slack value : Int} {p : Bool × Int × Int × Int} (hp : Refd cc v co slack vs.upper value value p W)
    (hr : Responsive cc) (h0 : cc.level ≠ 0) (hv : W.vars[v]? = some vs) (hlt : vs.upper < value) (hs : slack - co * (value - vs.upper) < 0) :
    Yes (introduceUpper cc v co value p) (Rsn cc) W := by
  have hn := hp.rd.nest.get hv
  obtain ⟨n1, n2⟩ := nested_range hn
  have hle := hn.le
  have look : ∀ us, W.vars[v]? = some us → us = vs := fun us hu => by rw [hv] at hu; injection hu with hu; exact hu.symm
  unfold Clingcon.introduceUpper
  refine Yes.step (qLitLevel_iff.mpr ⟨rfl, rfl⟩) ?_
  split
  · rename_i hc
    simp only [Bool.and_eq_true, decide_eq_true_eq] at hc
    have hs' : p.2.2.1 - co * (value - p.2.2.2) < 0 := by
      rw [hp.slk]
      nlinarith
    refine Yes.stepU (assertS_iff.mpr ⟨decide_eq_true hs', rfl⟩) ?_
    refine Yes.bind (hp.rd.getLit hv) (fun l W1 _ hg => ?_)
    obtain ⟨g, hf⟩ := hg
    have hgap := hp.gap (by omega)
    have hfl := hp.fls hc.1.1.1
    have hfl1 := isFalse_suffix hr.mono g.suffix hfl
    have ht1 := g.ti hp.rd.ti
    cases g with
    | low us hu h1 => rw [look us hu] at h1; omega
    | high us hu h1 h2 =>
      refine Yes.step (qTrue_iff.mpr ⟨rfl, rfl⟩) (Yes.stepU (assertS_iff.mpr ⟨?_, rfl⟩) (Yes.step (qFalse_iff.mpr ⟨rfl, rfl⟩) ?_))
      · rw [false_not_true (one_true hr).2]; rfl
      rw [if_pos (one_true hr).2]
      exact Yes.pure ⟨hs', fun _ => hp.rd, fun _ => (one_true hr).2⟩
    | old us us' l hu h1 h2 hm ht => exact absurd hm (hgap us hu l)
    | new us us' l hu h1 h2 hm ht hl =>
      have hnone := hp.rd.fresh (v := v) (x := value) hr h0 hl
      have hln : l ≠ 0 := by have := hp.rd.ti.pos; rcases hl with rfl | rfl <;> omega
      refine Yes.step (qTrue_iff.mpr ⟨rfl, rfl⟩) (Yes.stepU (assertS_iff.mpr ⟨?_, rfl⟩) (Yes.step (qFalse_iff.mpr ⟨rfl, rfl⟩) ?_))
      · rw [isTrue_neg hln, (none_false hnone).2]; rfl
      rw [isFalse_neg hln, (none_false hnone).1, if_neg (by simp)]
      refine Yes.step (addClause_iff.mpr ⟨rfl, rfl⟩) (Yes.pure ?_)
      have key : cc.accept (.clause [p.2.1, l] :: .watch (-l) :: .watch l :: .order l v value :: .lit W.nextLit :: W.log) = true →
          cc.isTrue (.clause [p.2.1, l] :: .watch (-l) :: .watch l :: .order l v value :: .lit W.nextLit :: W.log) l = true := by
        intro ha
        exact unit_clause hr h0 ha (l := l) (by simp) (fun m hm hn => by
          rcases List.mem_cons.mp hm with rfl | hm
          · exact hfl1
          · exact absurd (List.mem_singleton.mp hm) hn)
      exact ⟨hs', fun ha => hp.rd.gotOut hr.mono (.new us us' l hu h1 h2 hm ht hl) hf (true_some (key ha)), fun ha => by
        show cc.isFalse _ (-l) = true
        rw [isFalse_neg hln]
        exact key ha⟩
  · exact Yes.pure ⟨hp.neg, fun _ => hp.rd, hp.fls⟩

theorem Rd.reasonLower {v : Nat} {vs : VarState} {co slack : Int} (h : Rd cc W) (hr : Responsive cc) (hv : W.vars[v]? = some vs) (hc : 0 < co) (hs : slack < 0) :
    Yes (reasonLower cc v co slack) (Rsn cc) W := by
  unfold Clingcon.reasonLower
  refine Yes.step (getVar_iff.mpr ⟨hv, rfl⟩) (Yes.bind (h.getLit hv) (fun l W1 _ hg => ?_))
  obtain ⟨g, hf⟩ := hg
  have hfl := h.lowerLit hr hv g
  have hn := h.nest.get hv
  have hle := hn.le
  have look : ∀ us, W.vars[v]? = some us → us = vs := fun us hu => by rw [hv] at hu; injection hu with hu; exact hu.symm
  have h1 : Rd cc W1 := h.got hr.mono g hf (fun us hu => by rw [look us hu]; omega)
  obtain ⟨us, hu, eb⟩ := frame_var hf hv
  obtain ⟨e1, e2, e3, e4⟩ := bounds_parts eb
  refine Yes.step (qFalse_iff.mpr ⟨rfl, rfl⟩) (Yes.stepU (assertS_iff.mpr ⟨hfl, rfl⟩) ?_)
  dsimp only
  split
  · rename_i hcond
    simp only [Bool.and_eq_true, decide_eq_true_eq] at hcond
    have h0 : cc.level ≠ 0 := by omega
    obtain ⟨q1, q2⟩ := (floordiv_bounds (slack + 1) (-co) (by omega)).2 (by omega)
    set d := floordiv (slack + 1) (-co) with hd
    have hlt := hcond.2
    set value := max (vs.lower + -d) vs.minBound with hval
    have hge : vs.lower + -d ≤ value := le_max_left ..
    have hs' : slack - co * (value - vs.lower) < 0 := by nlinarith
    rw [← e1] at hlt hs' ⊢
    exact Yes.bind (h1.refineLower hr h0 hu hc hs hfl hlt hs') (fun p W2 hx hp => by
      obtain ⟨us2, hu2, eb2⟩ := frame_var (fr_refineLower.fr _ _ _ hx) hu
      obtain ⟨f1, f2, f3, f4⟩ := bounds_parts eb2
      rw [← f1] at hp hlt hs'
      exact hp.introduceLower hr h0 hu2 hlt hs')
  · exact Yes.pure ⟨hs, fun _ => h1, fun _ => hfl⟩

theorem Rd.reasonUpper {v : Nat} {vs : VarState} {co slack : Int} (h : Rd cc W) (hr : Responsive cc) (hv : W.vars[v]? = some vs) (hc : co < 0) (hs : slack < 0) :
    Yes (reasonUpper cc v co slack) (Rsn cc) W := by
  unfold Clingcon.reasonUpper
  refine Yes.step (getVar_iff.mpr ⟨hv, rfl⟩) (Yes.bind (h.getLit hv) (fun l W1 _ hg => ?_))
  obtain ⟨g, hf⟩ := hg
  have htl := h.upperLit hr hv g
  have hln : l ≠ 0 := g.ne0 h.ti
  have hfl : cc.isFalse W1.log (-l) = true := by rw [isFalse_neg hln]; exact htl
  have hn := h.nest.get hv
  have hle := hn.le
  have look : ∀ us, W.vars[v]? = some us → us = vs := fun us hu => by rw [hv] at hu; injection hu with hu; exact hu.symm
  have h1 : Rd cc W1 := h.got hr.mono g hf (fun us hu => by rw [look us hu]; omega)
  obtain ⟨us, hu, eb⟩ := frame_var hf hv
  obtain ⟨e1, e2, e3, e4⟩ := bounds_parts eb
  refine Yes.step (qFalse_iff.mpr ⟨rfl, rfl⟩) (Yes.stepU (assertS_iff.mpr ⟨hfl, rfl⟩) ?_)
  dsimp only
  split
  · rename_i hcond
    simp only [Bool.and_eq_true, decide_eq_true_eq] at hcond
    have h0 : cc.level ≠ 0 := by omega
    obtain ⟨q1, q2⟩ := (floordiv_bounds (slack + 1) co (by omega)).2 hc
    set d := floordiv (slack + 1) co with hd
    have hlt := hcond.2
    set value := min (vs.upper + d) vs.maxBound with hval
    have hge : value ≤ vs.upper + d := min_le_left ..
    have hs' : slack - co * (value - vs.upper) < 0 := by nlinarith
    rw [gt_iff_lt, ← e2] at hlt
    rw [← e2] at hs' ⊢
    exact Yes.bind (h1.refineUpper hr h0 hu hc hs hfl hlt hs') (fun p W2 hx hp => by
      obtain ⟨us2, hu2, eb2⟩ := frame_var (fr_refineUpper.fr _ _ _ hx) hu
      obtain ⟨f1, f2, f3, f4⟩ := bounds_parts eb2
      rw [← f2] at hp hlt hs'
      exact hp.introduceUpper hr h0 hu2 hlt hs')
  · exact Yes.pure ⟨hs, fun _ => h1, fun _ => hfl⟩

theorem Rd.calculateReason {v : Nat} {vs : VarState} {co slack : Int} (h : Rd cc W) (hr : Responsive cc) (hv : W.vars[v]? = some vs) (hc : co ≠ 0) (hs : slack < 0) :
    Yes (calculateReason cc v co slack) (Rsn cc) W := by
  unfold Clingcon.calculateReason
  have key : Yes (if co > 0 then Clingcon.reasonLower cc v co slack else Clingcon.reasonUpper cc v co slack) (Rsn cc) W := by
    split
    · exact h.reasonLower hr hv (by assumption) hs
    · exact h.reasonUpper hr hv (by omega) hs
  refine Yes.bind key (fun p W1 _ hp => Yes.step (qFalse_iff.mpr ⟨rfl, rfl⟩) (Yes.stepU (assertS_iff.mpr ⟨?_, rfl⟩) (Yes.pure hp)))
  cases e : p.1 with
  | false => rfl
  | true => rw [hp.fls e]; rfl

/-! ### Propagation -/

/-- The result of collecting reasons. -/
def Rsns (cc : CC) (r : Option (List Int)) (W : World) : Prop := ∀ rs, r = some rs → Rd cc W ∧ ∀ l ∈ rs, cc.isFalse W.log l = true

theorem Rd.sumReason (hr : Responsive cc) {skip : Option Nat} : ∀ {es : List (Int × Nat)} {slack : Int} {reason : List Int} {W : World}, Rd cc W →
    (∀ p ∈ es, p.1 ≠ 0 ∧ p.2 < W.vars.length) → slack < 0 → (∀ l ∈ reason, cc.isFalse W.log l = true) → Yes (sumReason cc skip es slack reason) (Rsns cc) W
  | [], slack, reason, W, h, hes, hs, hrs => Yes.pure (fun rs e => by injection e with e; subst e; exact ⟨h, hrs⟩)
  | (co, var) :: es, slack, reason, W, h, hes, hs, hrs => by
    obtain ⟨hc, hv⟩ := hes _ (List.mem_cons_self ..)
    obtain ⟨vs, hv⟩ := some_var hv
    unfold Clingcon.sumReason
    split
    · exact Rd.sumReason hr h (fun p hp => hes p (List.mem_cons_of_mem _ hp)) hs hrs
    refine Yes.bind (h.calculateReason hr hv hc hs) (fun p W1 hx hp => ?_)
    split
    · exact Yes.pure (fun rs e => by cases e)
    rename_i hp1
    have hp1 : p.1 = true := by simpa using hp1
    have hsuf : W.log <:+ W1.log := ((kw_calculateReason (lg_prim (W0 := W)).toPrim0).kw _ _ _ hx (LG.refl h.ti)).log
    have hlen : W1.vars.length = W.vars.length := by
      have := congrArg (fun p => p.1.length) (fr_calculateReason.fr _ _ _ hx)
      simpa [frame] using this
    refine Yes.step (a := if cc.isFixed W1.log p.2.1 then reason else reason ++ [p.2.1]) (W1 := W1) ?_ ?_
    · unfold pushReason
      simp only [smok]
      exact ⟨_, _, ⟨rfl, rfl⟩, rfl, rfl⟩
    refine Rd.sumReason hr (hp.rd hp1) (fun q hq => by rw [hlen]; exact hes q (List.mem_cons_of_mem _ hq)) hp.neg (fun l hl => ?_)
    split at hl
    · exact isFalse_suffix hr.mono hsuf (hrs l hl)
    · rcases List.mem_append.mp hl with hl | hl
      · exact isFalse_suffix hr.mono hsuf (hrs l hl)
      · rw [List.mem_singleton.mp hl]
        exact hp.fls hp1

theorem Rd.updLit {v : Nat} {vs : VarState} {x : Int} {t : Option Bool} (h : Rd cc W) (hr : Responsive cc) (hv : W.vars[v]? = some vs) (h1 : vs.lower ≤ x + 1) (h2 : x ≤ vs.upper) :
    Yes (updateLiteral cc v x t) (fun l W' => Rd cc W' ∧ W.log <:+ W'.log ∧ l ≠ 0) W := by
  obtain ⟨l, W', hx⟩ := Ok.updateLiteral (cc := cc) (x := x) (t := t) (h.ti.wf _ _ hv) h.ti.pos hv
  have hf := fr_updateLiteral.fr _ _ _ hx
  have look : ∀ us, W.vars[v]? = some us → us = vs := fun us hu => by rw [hv] at hu; injection hu with hu; exact hu.symm
  refine ⟨l, W', hx, ?_⟩
  rcases updateLiteral_eff h.ti.wf (by have := h.ti.pos; omega) hx with ⟨h0, t, -, g⟩ | g
  · refine ⟨⟨g.ti h.ti, ?_, fun _ => ?_, fun hn => absurd h0 hn, fun hn => absurd h0 hn, fun hn => absurd h0 hn, fun hn => absurd h0 hn⟩, g.suffix, ?_⟩
    · unfold AllNested; rw [hf]; exact h.nest
    · unfold Level0; rw [hf]; exact h.flat h0
    · cases g with
      | got _ _ g => exact g.ne0 h.ti
      | fact => cases t <;> decide
  · exact ⟨h.got hr.mono g hf (fun us hu => by rw [look us hu]; omega), g.suffix, g.ne0 h.ti⟩

theorem len_eq (h : frame W' = frame W) : W'.vars.length = W.vars.length := by
  have := congrArg (fun p => p.1.length) h
  simpa [frame] using this

/-- Variables exist and coefficients are different from zero. -/
def LinOk (es : List (Int × Nat)) (W : World) : Prop := ∀ p ∈ es, p.1 ≠ 0 ∧ p.2 < W.vars.length

theorem LinOk.frame {es : List (Int × Nat)} (h : LinOk es W) (hf : Clingcon.frame W' = Clingcon.frame W) : LinOk es W' := by
  unfold LinOk
  rw [len_eq hf]
  exact h

theorem Rd.sumDerive {tagged : Bool} {clit : Int} {es : List (Int × Nat)} {v : Nat} {vs : VarState} {slack value : Int} {neg : Bool} (h : Rd cc W) (hr : Responsive cc)
    (hes : LinOk es W) (hv : W.vars[v]? = some vs) (h1 : vs.lower ≤ value + 1) (h2 : value ≤ vs.upper) (hc : clit ≠ 0) (ht : cc.isTrue W.log clit = true) (hs : slack < 0) :
    Yes (sumDerive cc tagged clit es v slack value neg) (fun r W' => r = true → Rd cc W') W := by
  unfold Clingcon.sumDerive
  refine Yes.stepU (assertS_iff.mpr ⟨decide_eq_true hs, rfl⟩) ?_
  refine Yes.step (a := if cc.isFixed W.log (-clit) then [] else [] ++ [-clit]) (W1 := W) ?_ ?_
  · unfold pushReason
    simp only [smok]
    exact ⟨_, _, ⟨rfl, rfl⟩, rfl, rfl⟩
  refine Yes.bind (Rd.sumReason hr h hes hs (fun l hl => ?_)) (fun r W1 hx hp => ?_)
  · split at hl
    · cases hl
    · rw [List.mem_singleton.mp hl, isFalse_neg hc]
      exact ht
  cases r with
  | none => exact Yes.pure (fun h => by cases h)
  | some rs =>
    obtain ⟨k1, k2⟩ := hp rs rfl
    obtain ⟨us, hu, eb⟩ := frame_var (fr_sumReason.fr _ _ _ hx) hv
    obtain ⟨e1, e2, -, -⟩ := bounds_parts eb
    dsimp only
    refine Yes.bind (k1.updLit hr hu (by omega) (by omega)) (fun l W2 _ hl => ?_)
    obtain ⟨k3, hsuf, hl0⟩ := hl
    have hfl : ∀ m ∈ rs, cc.isFalse W2.log m = true := fun m hm => isFalse_suffix hr.mono hsuf (k2 m hm)
    generalize (if neg then -l else l) = lr
    have key : Yes (addClauseT cc tagged (rs ++ [lr])) (fun r W' => Rd cc W' ∧ (r = true → cc.level ≠ 0 → cc.isTrue W'.log lr = true)) W2 := by
      have hall : ∀ m ∈ rs ++ [lr], m ≠ lr → cc.isFalse W2.log m = true := fun m hm hn => by
        rcases List.mem_append.mp hm with hm | hm
        · exact hfl m hm
        · exact absurd (List.mem_singleton.mp hm) hn
      unfold addClauseT
      split
      · exact ⟨_, _, rfl, k3.event hr.mono (fun _ => by simp), fun ha h0 => unit_volatile hr h0 ha (by simp) hall⟩
      · exact ⟨_, _, rfl, k3.event hr.mono (fun _ => by simp), fun ha h0 => unit_clause hr h0 ha (by simp) hall⟩
    refine Yes.bind key (fun b W3 _ hb => ?_)
    split
    · exact Yes.pure (fun h => by cases h)
    rename_i hb1
    refine Yes.step (qTrue_iff.mpr ⟨rfl, rfl⟩) (Yes.stepU (assertS_iff.mpr ⟨?_, rfl⟩) (Yes.pure (fun _ => hb.1)))
    by_cases h0 : cc.level = 0
    · rw [h0]; simp
    · rw [hb.2 (by simpa using hb1) h0]; rfl

theorem Rd.sumConsequence {tagged : Bool} {clit : Int} {es : List (Int × Nat)} {v : Nat} {vs : VarState} {slack value : Int} {neg : Bool} (h : Rd cc W) (hr : Responsive cc)
    (hes : LinOk es W) (hv : W.vars[v]? = some vs) (h1 : vs.lower ≤ value) (h2 : value < vs.upper) (hc : clit ≠ 0) (ht : cc.isTrue W.log clit = true) (hs : slack < 0) :
    Yes (sumConsequence cc tagged clit es v slack value neg) (fun r W' => r = true → Rd cc W') W := by
  obtain ⟨n1, n2⟩ := nested_range (h.nest.get hv)
  have look : ∀ us, W.vars[v]? = some us → us = vs := fun us hu => by rw [hv] at hu; injection hu with hu; exact hu.symm
  unfold Clingcon.sumConsequence
  have key : Yes (hasOrder cc v value neg) (fun l W' => Rd cc W' ∧ W.log <:+ W'.log) W := by
    obtain ⟨b, hb, -⟩ := hasLiteral_ok (h.ti.wf _ _ hv) (k := value) (Or.inl ⟨by omega, by omega⟩)
    unfold hasOrder
    refine Yes.step (getVar_iff.mpr ⟨hv, rfl⟩) (Yes.step (liftRes_iff.mpr ⟨hb, rfl⟩) ?_)
    split
    · refine Yes.bind (h.getLit hv) (fun l W1 _ hg => Yes.pure ⟨h.got hr.mono hg.1 hg.2 (fun us hu => by rw [look us hu]; omega), hg.1.suffix⟩)
    · exact Yes.pure ⟨h, List.suffix_rfl⟩
  refine Yes.bind key (fun l W1 hx h1' => ?_)
  have need : Yes (needReason cc l) (fun _ W' => W' = W1) W1 := by
    cases l with
    | none => exact Yes.pure rfl
    | some l =>
      unfold needReason
      exact Yes.step (qTrue_iff.mpr ⟨rfl, rfl⟩) (Yes.pure rfl)
  refine Yes.bind need (fun b W2 _ e => ?_)
  subst e
  split
  · obtain ⟨us, hu, eb⟩ := frame_var (fr_hasOrder.fr _ _ _ hx) hv
    obtain ⟨e1, e2, -, -⟩ := bounds_parts eb
    exact h1'.1.sumDerive hr (hes.frame (fr_hasOrder.fr _ _ _ hx)) hu (by omega) (by omega) hc (isTrue_suffix hr.mono h1'.2 ht) hs
  · exact Yes.pure (fun _ => h1'.1)

theorem Rd.sumStep {tagged : Bool} {clit : Int} {es : List (Int × Nat)} {v : Nat} {slack co : Int} (h : Rd cc W) (hr : Responsive cc)
    (hes : LinOk es W) (hv : v < W.vars.length) (hco : co ≠ 0) (hc : clit ≠ 0) (ht : cc.isTrue W.log clit = true) (hs : 0 ≤ slack) :
    Yes (sumStep cc tagged clit es slack co v) (fun r W' => r = true → Rd cc W') W := by
  obtain ⟨vs, hv⟩ := some_var hv
  unfold Clingcon.sumStep
  refine Yes.step (getVar_iff.mpr ⟨hv, rfl⟩) ?_
  split
  · rename_i hpos
    obtain ⟨q1, q2⟩ := (floordiv_bounds (slack + 1) (-co) (by omega)).2 (by omega)
    dsimp only
    generalize floordiv (slack + 1) (-co) = d at q1 q2
    have a1 : slack - co * -d < 0 := by nlinarith
    have a2 : 0 ≤ slack - co * (-d - 1) := by nlinarith
    have a3 : 1 ≤ -d := by nlinarith
    refine Yes.stepU (assertS_iff.mpr ⟨by rw [decide_eq_true a1, decide_eq_true a2]; rfl, rfl⟩) ?_
    split
    · exact Yes.pure (fun _ => h)
    · exact h.sumConsequence hr hes hv (by omega) (by omega) hc ht a1
  · rename_i hneg
    obtain ⟨q1, q2⟩ := (floordiv_bounds (slack + 1) co hco).2 (by omega)
    dsimp only
    generalize floordiv (slack + 1) co = d at q1 q2
    have hlt : co < 0 := by omega
    have a1 : slack - co * d < 0 := by nlinarith
    have a2 : 0 ≤ slack - co * (d + 1) := by nlinarith
    have a3 : d ≤ -1 := by nlinarith
    refine Yes.stepU (assertS_iff.mpr ⟨by rw [decide_eq_true a1, decide_eq_true a2]; rfl, rfl⟩) ?_
    split
    · exact Yes.pure (fun _ => h)
    · exact h.sumConsequence hr hes hv (by omega) (by omega) hc ht a1

theorem Rd.sumLoop (hr : Responsive cc) {tagged : Bool} {clit : Int} {es : List (Int × Nat)} {slack : Int} (hc : clit ≠ 0) (hs : 0 ≤ slack) :
    ∀ {fs : List (Int × Nat)} {W : World}, Rd cc W → LinOk es W → LinOk fs W → cc.isTrue W.log clit = true →
    Yes (sumLoop cc tagged clit es slack fs) (fun r W' => r = true → Rd cc W') W
  | [], W, h, hes, hfs, ht => Yes.pure (fun _ => h)
  | (co, v) :: fs, W, h, hes, hfs, ht => by
    unfold Clingcon.sumLoop
    obtain ⟨hco, hv⟩ := hfs _ (List.mem_cons_self ..)
    refine Yes.bind (h.sumStep hr hes hv hco hc ht hs) (fun b W1 hx hb => ?_)
    split
    · exact Yes.pure (fun h => by cases h)
    rename_i hb1
    have hf := fr_sumStep.fr _ _ _ hx
    have hsuf : W.log <:+ W1.log := ((kw_sumStep (lg_prim (W0 := W)).toPrim0).kw _ _ _ hx (LG.refl h.ti)).log
    refine Rd.sumLoop hr hc hs (hb (by simpa using hb1)) (hes.frame hf) ?_ (isTrue_suffix hr.mono hsuf ht)
    exact LinOk.frame (fun p hp => hfs p (List.mem_cons_of_mem _ hp)) hf

theorem markInactive_yes (h : Rd cc W) (hl : W.book.levels ≠ []) {n : Nat} {R : World → Prop}
    (hR : ∀ l : Lvl, W.book.levels.head? = some l → R { W with book := W.book.markInactive l.level n }) : Yes (markInactiveS n) (fun _ W' => R W') W := by
  obtain ⟨l, ls, e⟩ := List.exists_cons_of_ne_nil hl
  have hh : W.book.levels.head? = some l := by rw [e]; rfl
  unfold markInactiveS
  exact Yes.step (curLevel_iff.mpr ⟨hh, rfl⟩) ⟨(), _, modify_iff.mpr rfl, hR l hh⟩

/-- The check of the state of a linear constraint passes. -/
def SumOk (c : CState) (es : List (Int × Nat)) (W : World) : Prop := ∃ p, sumBounds es W = .ok (p, W) ∧ p.1 = c.lower ∧ p.2 = c.upper ∧ p.1 ≤ p.2

theorem Rd.sumPropagate {n : Nat} {c : CState} {ck tagged : Bool} {clit rhs : Int} {es : List (Int × Nat)} (h : Rd cc W) (hr : Responsive cc) (hl : W.book.levels ≠ [])
    (hes : LinOk es W) (hc : clit ≠ 0) (hn : W.book.cs[n]? = some c) (ha : c.alive = true) (hck : ck = true → SumOk c es W) (hf : cc.isFalse W.log clit = false) :
    Yes (sumPropagate cc n ck tagged clit rhs es) (fun r W' => r = true → Rd cc W') W := by
  unfold Clingcon.sumPropagate
  refine Yes.step (a := c) (W1 := W) (by unfold getCS; rw [hn]; dsimp only; rw [if_pos ha]) ?_
  refine Yes.stepU (W1 := W) ?_ ?_
  · rw [whenS_iff]
    by_cases hk : ck = true
    · obtain ⟨p, h1, h2, h3, h4⟩ := hck hk
      refine Or.inl ⟨hk, ?_⟩
      unfold sumCheckState
      refine bind_iff.mpr ⟨p, W, h1, ?_⟩
      rw [if_neg (by simpa using h2), if_neg (by simpa using h3), if_neg (by omega)]
      rfl
    · exact Or.inr ⟨by simpa using hk, rfl⟩
  refine Yes.step (qFalse_iff.mpr ⟨rfl, rfl⟩) (Yes.stepU (assertS_iff.mpr ⟨by rw [hf]; rfl, rfl⟩) ?_)
  split
  · exact Yes.bind (markInactive_yes (R := fun W' => Rd cc W') h hl (fun l _ => h.book _)) (fun _ W1 _ hk => Yes.pure (fun _ => hk))
  split
  · rename_i hs
    refine Yes.bind (Rd.sumReason hr h hes hs (fun l hl => by cases hl)) (fun r W1 hx hp => ?_)
    cases r with
    | none => exact Yes.pure (fun h => by cases h)
    | some rs =>
      obtain ⟨k1, k2⟩ := hp rs rfl
      have hb : W1.book = W.book := congrArg Prod.snd (fr_sumReason.fr _ _ _ hx)
      dsimp only
      refine Yes.bind (markInactive_yes (R := fun W' => Rd cc W') k1 (by rw [hb]; exact hl) (fun l _ => k1.book _)) (fun _ W2 _ k3 => ?_)
      unfold addClauseT
      split
      · exact ⟨_, _, rfl, fun _ => k3.event hr.mono (fun _ => by simp)⟩
      · exact ⟨_, _, rfl, fun _ => k3.event hr.mono (fun _ => by simp)⟩
  · rename_i hs
    refine Yes.step (qTrue_iff.mpr ⟨rfl, rfl⟩) ?_
    split
    · exact Yes.pure (fun _ => h)
    · rename_i ht
      exact Rd.sumLoop hr hc (by omega) h hes hes (by simpa using ht)

end Clingcon
