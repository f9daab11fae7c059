import Verif.Proof.Distinct
import Verif.Proof.LinksRun
import Verif.Proof.SumDetect

/-! Propagation of distinct constraints detects elements that are fixed to the same value. -/
set_option linter.unusedVariables false
namespace Clingcon
open Spec VarState

variable {α γ : Type} {W W' W'' : World} {cc : CC}

/-- The literal standing for `v ≤ k`. -/
def LitOf (W : World) (v : Nat) (k l : Int) : Prop :=
  ∃ vs, W.vars[v]? = some vs ∧ ((k < vs.minBound ∧ l = -TRUE_LIT) ∨ (vs.minBound ≤ k ∧ vs.maxBound ≤ k ∧ l = TRUE_LIT) ∨
    (vs.minBound ≤ k ∧ k < vs.maxBound ∧ (k, l) ∈ vs.with))

theorem LitOf.unique {v : Nat} {k l l' : Int} (hw : AllWF W) (h : LitOf W v k l) (h' : LitOf W v k l') : l = l' := by
  obtain ⟨vs, hv, h⟩ := h
  obtain ⟨vs', hv', h'⟩ := h'
  rw [hv] at hv'
  injection hv' with hv'
  subst hv'
  rcases h with ⟨a, rfl⟩ | ⟨a, b, rfl⟩ | ⟨a, b, c⟩ <;> rcases h' with ⟨a', rfl⟩ | ⟨a', b', rfl⟩ | ⟨a', b', c'⟩ <;> first | rfl | omega | exact with_unique (hw v vs hv) c c'

/-- The second state comes later: literals of bounds are kept, bounds and bookkeeping are the same. -/
structure Later (W W' : World) : Prop where
  ti : TI W → TI W'
  lits : TI W → ∀ v k l, LitOf W v k l → LitOf W' v k l
  frame : frame W' = frame W
  log : W.log <:+ W'.log

theorem Later.refl : Later W W := ⟨id, fun _ _ _ _ h => h, rfl, List.suffix_refl _⟩
theorem Later.trans (h : Later W W') (h' : Later W' W'') : Later W W'' :=
  ⟨fun t => h'.ti (h.ti t), fun t v k l hl => h'.lits (h.ti t) v k l (h.lits t v k l hl), h'.frame.trans h.frame, h.log.trans h'.log⟩

/-- Computations after which all literals are kept. -/
structure Lat (x : SM α) : Prop where
  lat : ∀ W a W', x W = .ok (a, W') → Later W W'

theorem Lat.bind {x : SM α} {f : α → SM γ} (hx : Lat x) (hf : ∀ a, Lat (f a)) : Lat (x >>= f) :=
  ⟨fun W b W' h => by obtain ⟨a, W1, h1, h2⟩ := SM.bind_ok h; exact (hx.lat _ _ _ h1).trans ((hf a).lat _ _ _ h2)⟩
theorem Lat.same {x : SM α} (h : ∀ W a W', x W = .ok (a, W') → W' = W) : Lat x := ⟨fun W a W' hx => by rw [h _ _ _ hx]; exact Later.refl⟩
theorem Lat.pure {a : α} : Lat (Pure.pure a : SM α) := Lat.same (fun _ _ _ h => (pure_iff.mp h).2)
theorem Lat.ub : Lat (SM.ub : SM α) := ⟨fun W b W' h => by cases h⟩
theorem Lat.assertS {b : Bool} : Lat (assertS b) := Lat.same (fun _ _ _ h => (assertS_iff.mp h).2)
theorem Lat.getVar {v : Nat} : Lat (getVar v) := Lat.same (fun _ _ _ h => (getVar_iff.mp h).2)
theorem Lat.qTrue {l : Int} : Lat (qTrue cc l) := Lat.same (fun _ _ _ h => (qTrue_iff.mp h).2)
theorem Lat.qFalse {l : Int} : Lat (qFalse cc l) := Lat.same (fun _ _ _ h => (qFalse_iff.mp h).2)
theorem Lat.qFixed {l : Int} : Lat (qFixed cc l) := Lat.same (fun _ _ _ h => (qFixed_iff.mp h).2)
theorem Lat.addClause {c : List Int} : Lat (addClause cc c) :=
  ⟨fun W a W' h => by
    rw [(addClause_iff.mp h).2]
    exact ⟨fun t => t.other rfl rfl rfl, fun _ _ _ _ h => h, rfl, List.suffix_cons _ _⟩⟩

theorem LitOf.set {v w : Nat} {vs vs' : VarState} {k l x : Int} (hv : W.vars[w]? = some vs) (he : vs' = { vs with table := vs'.table })
    (hm : ∀ a b, (a, b) ∈ vs.with → (a, b) ∈ vs'.with) (h : LitOf W v k l) (hW : W'.vars = W.vars.set w vs') : LitOf W' v k l := by
  have a3 : vs'.minBound = vs.minBound := by rw [he]; rfl
  have a4 : vs'.maxBound = vs.maxBound := by rw [he]; rfl
  obtain ⟨us, hu, h⟩ := h
  by_cases e : w = v
  · subst e
    rw [hv] at hu
    injection hu with hu
    subst hu
    refine ⟨vs', by rw [hW, List.getElem?_set_self (List.getElem?_eq_some_iff.mp hv).1], ?_⟩
    rw [a3, a4]
    exact h.imp id (Or.imp id (fun h => ⟨h.1, h.2.1, hm _ _ h.2.2⟩))
  · exact ⟨us, by rw [hW, List.getElem?_set_ne e]; exact hu, h⟩

theorem GotLit.later {v : Nat} {k l : Int} (h : GotLit W v k l W') (hf : Clingcon.frame W' = Clingcon.frame W) : Later W W' ∧ LitOf W' v k l := by
  refine ⟨⟨fun t => h.ti t, fun t w a x hl => ?_, hf, ?_⟩, ?_⟩
  · cases h with
    | low => exact hl
    | high => exact hl
    | old vs vs' l hv h1 h2 hm hs => exact hl.set hv hs.eq (fun a b hab => (hs.mem a b).mpr hab) rfl (x := 0)
    | new vs vs' l hv h1 h2 hm hs hl' =>
      refine hl.set hv hs.eq (fun a b hab => (hs.mem a b).mpr ?_) rfl (x := 0)
      rw [if_neg]
      · exact hab
      · rintro rfl; exact hm _ hab
  · obtain ⟨new, e⟩ := h.log
    exact ⟨new, e.symm⟩
  · cases h with
    | low vs hv h1 => exact ⟨vs, hv, .inl ⟨h1, rfl⟩⟩
    | high vs hv h1 h2 => exact ⟨vs, hv, .inr (.inl ⟨h1, h2, rfl⟩)⟩
    | old vs vs' l hv h1 h2 hm hs =>
      have a3 : vs'.minBound = vs.minBound := by rw [hs.eq]; rfl
      have a4 : vs'.maxBound = vs.maxBound := by rw [hs.eq]; rfl
      exact ⟨vs', List.getElem?_set_self (List.getElem?_eq_some_iff.mp hv).1, .inr (.inr ⟨a3 ▸ h1, a4 ▸ h2, (hs.mem _ _).mpr hm⟩)⟩
    | new vs vs' l hv h1 h2 hm hs hl' =>
      have a3 : vs'.minBound = vs.minBound := by rw [hs.eq]; rfl
      have a4 : vs'.maxBound = vs.maxBound := by rw [hs.eq]; rfl
      exact ⟨vs', List.getElem?_set_self (List.getElem?_eq_some_iff.mp hv).1, .inr (.inr ⟨a3 ▸ h1, a4 ▸ h2, (hs.mem _ _).mpr (by rw [if_pos rfl])⟩)⟩

theorem UpdLit.later {v : Nat} {k l : Int} {t : Bool} (h : UpdLit W v k t l W') (hf : Clingcon.frame W' = Clingcon.frame W) : Later W W' ∧ LitOf W' v k l := by
  cases h with
  | got l W' hg => exact hg.later hf
  | fact vs vs' hv h1 h2 hno hs =>
    refine ⟨⟨fun ti => UpdLit.ti (.fact vs vs' hv h1 h2 hno hs) ti, fun ti w a x hl => ?_, hf, List.suffix_refl _⟩, ?_⟩
    · refine hl.set hv hs.eq (fun a b hab => (hs.mem a b).mpr ?_) rfl (x := 0)
      rw [if_neg]
      · exact hab
      · rintro rfl; exact hno _ hab
    · have a3 : vs'.minBound = vs.minBound := by rw [hs.eq]; rfl
      have a4 : vs'.maxBound = vs.maxBound := by rw [hs.eq]; rfl
      exact ⟨vs', List.getElem?_set_self (List.getElem?_eq_some_iff.mp hv).1, .inr (.inr ⟨a3 ▸ h1, a4 ▸ h2, (hs.mem _ _).mpr (by rw [if_pos rfl])⟩)⟩

theorem getLiteral_later {v : Nat} {k l : Int} (ht : TI W) (h : getLiteral cc v k W = .ok (l, W')) : Later W W' ∧ LitOf W' v k l :=
  (getLiteral_eff ht.wf (by have := ht.pos; omega) h).later (fr_getLiteral.fr _ _ _ h)

theorem updateLiteral_later {v : Nat} {k l : Int} {t : Option Bool} (ht : TI W) (h : updateLiteral cc v k t W = .ok (l, W')) : Later W W' ∧ LitOf W' v k l := by
  have hf := fr_updateLiteral.fr _ _ _ h
  rcases updateLiteral_eff ht.wf (by have := ht.pos; omega) h with ⟨-, t, -, h⟩ | h
  · exact h.later hf
  · exact h.later hf

theorem lat_getLiteral {v : Nat} {k : Int} : Lat (getLiteral cc v k) :=
  ⟨fun W a W' h => ⟨fun ht => (getLiteral_later ht h).1.ti ht, fun ht => (getLiteral_later ht h).1.lits ht, fr_getLiteral.fr _ _ _ h,
    let ⟨new, e⟩ := ((ext_getLiteral (m := false)).ext _ _ _ h).1; ⟨new, e.symm⟩⟩⟩
theorem lat_updateLiteral {v : Nat} {k : Int} {t : Option Bool} : Lat (updateLiteral cc v k t) :=
  ⟨fun W a W' h => ⟨fun ht => (updateLiteral_later ht h).1.ti ht, fun ht => (updateLiteral_later ht h).1.lits ht, fr_updateLiteral.fr _ _ _ h,
    let ⟨new, e⟩ := ((ext_updateLiteral (m := false)).ext _ _ _ h).1; ⟨new, e.symm⟩⟩⟩

macro "lat_step" : tactic => `(tactic| first
  | exact Lat.pure | exact Lat.ub | exact Lat.assertS | exact Lat.getVar | exact Lat.qTrue | exact Lat.qFalse | exact Lat.qFixed | exact Lat.addClause
  | exact lat_getLiteral | exact lat_updateLiteral | assumption | (apply Lat.bind) | intro _ | split)

theorem lat_pushReason {r : List Int} {l : Int} : Lat (pushReason cc r l) := by unfold pushReason; repeat lat_step
theorem lat_distinctReason {es : List (Int × Nat)} : ∀ {r : List Int}, Lat (distinctReason cc es r) := by
  induction es with
  | nil => intro r; exact Lat.pure
  | cons e es ih =>
    intro r
    obtain ⟨co, v⟩ := e
    unfold distinctReason
    repeat first | exact ih | exact lat_pushReason | lat_step
theorem lat_distinctStep {up f : Bool} {v : Nat} {r : List Int} : Lat (distinctStep cc up f v r) := by
  unfold distinctStep
  repeat first | exact lat_pushReason | lat_step
theorem lat_distinctConsequence {s : Int} {f : Bool} {es : List (Int × Nat)} : ∀ {r : List Int}, Lat (distinctConsequence cc s f es r) := by
  induction es with
  | nil => intro r; exact Lat.pure
  | cons e es ih =>
    intro r
    obtain ⟨co, v⟩ := e
    unfold distinctConsequence
    repeat first | exact ih | exact lat_distinctStep | lat_step
theorem lat_distinctPair {clit s : Int} {es : List (List (Int × Nat) × Int)} {i j : Nat} : Lat (distinctPair cc clit es s i j) := by
  unfold distinctPair
  repeat first | exact lat_pushReason | exact lat_distinctReason | exact lat_distinctConsequence | lat_step
theorem lat_distinctPairs {clit s : Int} {es : List (List (Int × Nat) × Int)} {i : Nat} {js : List Nat} : Lat (distinctPairs cc clit es s i js) := by
  induction js with
  | nil => exact Lat.pure
  | cons j js ih =>
    unfold distinctPairs
    repeat first | exact ih | exact lat_distinctPair | lat_step
theorem lat_distinctAssigned {c : CState} {clit x : Int} {es : List (List (Int × Nat) × Int)} {i : Nat} : Lat (distinctAssigned cc c clit es x i) := by
  unfold distinctAssigned
  repeat first | exact lat_distinctPairs | lat_step
theorem lat_distinctTodo {c : CState} {clit s : Int} {es : List (List (Int × Nat) × Int)} {is : List Nat} : Lat (distinctTodo cc c clit es s is) := by
  induction is with
  | nil => exact Lat.pure
  | cons j js ih =>
    unfold distinctTodo
    repeat first | exact ih | exact lat_distinctPair | exact lat_distinctAssigned | lat_step

/-! ### Literals known to be true and false -/

theorem suffix_keep {S : List SEv → Prop} (hS : ∀ e log, S log → S (e :: log)) {a b : List SEv} (h : a <:+ b) (hs : S a) : S b := by
  obtain ⟨new, rfl⟩ := h
  induction new with
  | nil => exact hs
  | cons e new ih => exact hS e _ ih

theorem mono_false (hv : EnvMono cc) {a b : List SEv} {l : Int} (h : a <:+ b) (hl : cc.isFalse a l = true) : cc.isFalse b l = true :=
  suffix_keep (S := fun log => cc.isFalse log l = true) (fun e log h => hv.isFalse h) h hl
theorem mono_true (hv : EnvMono cc) {a b : List SEv} {l : Int} (h : a <:+ b) (hl : cc.isTrue a l = true) : cc.isTrue b l = true :=
  suffix_keep (S := fun log => cc.isTrue log l = true) (fun e log h => hv.isTrue h) h hl

/-- The literal of a bound, with the given sign. -/
def sgn (b : Bool) (l : Int) : Int := if b then -l else l

/-- The literal (with a sign) standing for a bound is false. -/
def Fls (cc : CC) (W : World) (v : Nat) (k : Int × Bool) : Prop := ∃ l, LitOf W v k.1 l ∧ cc.isFalse W.log (sgn k.2 l) = true
def Tru (cc : CC) (W : World) (v : Nat) (k : Int × Bool) : Prop := ∃ l, LitOf W v k.1 l ∧ cc.isTrue W.log (sgn k.2 l) = true

variable {v : Nat} {k : Int × Bool}

theorem Fls.later (hv : EnvMono cc) (ht : TI W) (hl : Later W W') (h : Fls cc W v k) : Fls cc W' v k := by
  obtain ⟨l, h1, h2⟩ := h
  exact ⟨l, hl.lits ht _ _ _ h1, mono_false hv hl.log h2⟩
theorem Tru.later (hv : EnvMono cc) (ht : TI W) (hl : Later W W') (h : Tru cc W v k) : Tru cc W' v k := by
  obtain ⟨l, h1, h2⟩ := h
  exact ⟨l, hl.lits ht _ _ _ h1, mono_true hv hl.log h2⟩
theorem Fls.not_tru (ht : TI W) (h : Fls cc W v k) (h' : Tru cc W v k) : False := by
  obtain ⟨l, h1, h2⟩ := h
  obtain ⟨l', h3, h4⟩ := h'
  rw [h1.unique ht.wf h3] at h2
  unfold CC.isFalse at h2
  unfold CC.isTrue at h4
  cases hh : cc.value W.log (sgn k.2 l') with
  | none => rw [hh] at h2; cases h2
  | some b => rw [hh] at h2 h4; cases b <;> simp_all

/-- The literal of the reason for a variable with the given value, for the upper or the lower bound. -/
def rk (x : Int) (up : Bool) : Int × Bool := if up then (x, true) else (x - 1, false)

theorem pushReason_mem {r r' : List Int} {l : Int} (h : pushReason cc r l W = .ok (r', W')) : W' = W ∧ ∀ y ∈ r', y ∈ r ∨ y = l := by
  unfold pushReason at h
  obtain ⟨f, W1, h1, h2⟩ := SM.bind_ok h
  obtain ⟨rfl, rfl⟩ := qFixed_iff.mp h1
  obtain ⟨rfl, rfl⟩ := pure_iff.mp h2
  refine ⟨rfl, fun y hy => ?_⟩
  split_ifs at hy
  · exact .inl hy
  · rcases List.mem_append.mp hy with hy | hy
    · exact .inl hy
    · exact .inr (List.mem_singleton.mp hy)

theorem distinctReason_false (hv : EnvMono cc) : ∀ {es : List (Int × Nat)} {r r' : List Int} {W W' : World}, distinctReason cc es r W = .ok (r', W') →
    ∀ y ∈ r', y ∈ r ∨ cc.isFalse W'.log y = true
  | [], r, r', W, W', h => by
    obtain ⟨rfl, rfl⟩ := pure_iff.mp h
    exact fun y hy => .inl hy
  | (co, v) :: es, r, r', W, W', h => by
    unfold distinctReason at h
    replace h := SM.bind_ok h
    obtain ⟨vs, W1, h1, h⟩ := h
    obtain ⟨-, rfl⟩ := getVar_iff.mp h1
    replace h := SM.bind_ok h
    obtain ⟨_, W2, h2, h⟩ := h
    obtain ⟨-, rfl⟩ := assertS_iff.mp h2
    replace h := SM.bind_ok h
    obtain ⟨l, W3, h3, h⟩ := h
    replace h := SM.bind_ok h
    obtain ⟨b, W4, h4, h⟩ := h
    obtain ⟨rfl, rfl⟩ := qFalse_iff.mp h4
    replace h := SM.bind_ok h
    obtain ⟨_, W5, h5, h⟩ := h
    obtain ⟨f1, rfl⟩ := assertS_iff.mp h5
    replace h := SM.bind_ok h
    obtain ⟨r1, W6, h6, h⟩ := h
    obtain ⟨rfl, m1⟩ := pushReason_mem h6
    replace h := SM.bind_ok h
    obtain ⟨l2, W7, h7, h⟩ := h
    replace h := SM.bind_ok h
    obtain ⟨b, W8, h8, h⟩ := h
    obtain ⟨rfl, rfl⟩ := qFalse_iff.mp h8
    replace h := SM.bind_ok h
    obtain ⟨_, W9, h9, h⟩ := h
    obtain ⟨f2, rfl⟩ := assertS_iff.mp h9
    replace h := SM.bind_ok h
    obtain ⟨r2, W10, h10, h⟩ := h
    obtain ⟨rfl, m2⟩ := pushReason_mem h10
    have g1 := (lat_getLiteral.lat _ _ _ h7).log
    have g2 := (lat_distinctReason.lat _ _ _ h).log
    intro y hy
    rcases distinctReason_false hv h y hy with hy | hy
    · rcases m2 y hy with hy | rfl
      · rcases m1 y hy with hy | rfl
        · exact .inl hy
        · exact .inr (mono_false hv (g1.trans g2) f1)
      · exact .inr (mono_false hv g2 f2)
    · exact .inr hy

theorem distinctStep_false (hv : EnvMono cc) (ht : TI W) {up f : Bool} {r r' : List Int} {x l : Int} (hx : (if up then upF (frame W) v else loF (frame W) v) = x)
    (h : distinctStep cc up f v r W = .ok ((r', l), W')) :
    Fls cc W' v (rk x up) ∧ (∃ l0, LitOf W' v (rk x (!up)).1 l0 ∧ l = sgn (rk x (!up)).2 l0) ∧ ∀ y ∈ r', y ∈ r ∨ cc.isFalse W'.log y = true := by
  unfold distinctStep at h
  replace h := SM.bind_ok h
  obtain ⟨vs, W1, h1, h⟩ := h
  obtain ⟨hvs, rfl⟩ := getVar_iff.mp h1
  cases up with
  | true =>
    rw [if_pos rfl] at hx
    have eup : vs.upper = x := by rw [← hx]; unfold upF frame; dsimp only; rw [List.getElem?_map, hvs]; rfl
    rw [if_pos rfl] at h
    replace h := SM.bind_ok h
    obtain ⟨l1, W3, h3, h⟩ := h
    obtain ⟨t1, t2⟩ := getLiteral_later ht h3
    replace h := SM.bind_ok h
    obtain ⟨b, W4, h4, h⟩ := h
    obtain ⟨rfl, rfl⟩ := qFalse_iff.mp h4
    replace h := SM.bind_ok h
    obtain ⟨_, W5, h5, h⟩ := h
    obtain ⟨f1, rfl⟩ := assertS_iff.mp h5
    replace h := SM.bind_ok h
    obtain ⟨r1, W6, h6, h⟩ := h
    obtain ⟨rfl, m1⟩ := pushReason_mem h6
    replace h := SM.bind_ok h
    obtain ⟨l2, W7, h7, h⟩ := h
    obtain ⟨t3, t4⟩ := updateLiteral_later (t1.ti ht) h7
    obtain ⟨e, rfl⟩ := pure_iff.mp h
    obtain ⟨rfl, rfl⟩ := Prod.mk.inj e
    rw [eup] at t2 t4
    exact ⟨⟨l1, t3.lits (t1.ti ht) _ _ _ t2, mono_false hv t3.log f1⟩, ⟨_, t4, rfl⟩, fun y hy => (m1 y hy).imp id (fun e => by rw [e]; exact mono_false hv t3.log f1)⟩
  | false =>
    rw [if_neg (by decide)] at hx
    have elo : vs.lower = x := by rw [← hx]; unfold loF frame; dsimp only; rw [List.getElem?_map, hvs]; rfl
    rw [if_neg (by decide)] at h
    replace h := SM.bind_ok h
    obtain ⟨l1, W3, h3, h⟩ := h
    obtain ⟨t1, t2⟩ := getLiteral_later ht h3
    replace h := SM.bind_ok h
    obtain ⟨b, W4, h4, h⟩ := h
    obtain ⟨rfl, rfl⟩ := qFalse_iff.mp h4
    replace h := SM.bind_ok h
    obtain ⟨_, W5, h5, h⟩ := h
    obtain ⟨f1, rfl⟩ := assertS_iff.mp h5
    replace h := SM.bind_ok h
    obtain ⟨r1, W6, h6, h⟩ := h
    obtain ⟨rfl, m1⟩ := pushReason_mem h6
    replace h := SM.bind_ok h
    obtain ⟨l2, W7, h7, h⟩ := h
    obtain ⟨t3, t4⟩ := updateLiteral_later (t1.ti ht) h7
    obtain ⟨e, rfl⟩ := pure_iff.mp h
    obtain ⟨rfl, rfl⟩ := Prod.mk.inj e
    rw [elo] at t2 t4
    exact ⟨⟨l1, t3.lits (t1.ti ht) _ _ _ t2, mono_false hv t3.log f1⟩, ⟨_, t4, rfl⟩, fun y hy => (m1 y hy).imp id (fun e => by rw [e]; exact mono_false hv t3.log f1)⟩

/-- The direction of a variable of an element. -/
def dir (s : Int) (e : Int × Nat) : Bool := decide (s * e.1 > 0)

/-- The literal of the consequence for a variable. -/
def Cons (W : World) (s : Int) (x : Int × Nat → Int) (e : Int × Nat) (y : Int) : Prop :=
  ∃ l0, LitOf W e.2 (rk (x e) (!dir s e)).1 l0 ∧ y = sgn (rk (x e) (!dir s e)).2 l0

theorem distinctConsequence_false (hv : EnvMono cc) {s : Int} {f : Bool} {x : Int × Nat → Int} : ∀ {es : List (Int × Nat)} {r : List Int} {o : Option (List Int)} {W W' : World},
    distinctConsequence cc s f es r W = .ok (o, W') → TI W → (∀ e ∈ es, (if dir s e then upF (frame W) e.2 else loF (frame W) e.2) = x e) →
    (∃ r', o = some r' ∧ (∀ e ∈ es, Fls cc W' e.2 (rk (x e) (dir s e))) ∧ ∀ y ∈ r', y ∈ r ∨ cc.isFalse W'.log y = true ∨ ∃ e ∈ es, Cons W' s x e y) ∨
    (o = none ∧ ∃ pre e post, es = pre ++ e :: post ∧ (∀ e' ∈ pre ++ [e], Fls cc W' e'.2 (rk (x e') (dir s e'))) ∧ Tru cc W' e.2 (rk (x e) (!dir s e)))
  | [], r, o, W, W', h, ht, hx => by
    obtain ⟨rfl, rfl⟩ := pure_iff.mp h
    exact .inl ⟨r, rfl, fun e he => absurd he List.not_mem_nil, fun y hy => .inl hy⟩
  | (co, v) :: es, r, o, W, W', h, ht, hx => by
    unfold distinctConsequence at h
    replace h := SM.bind_ok h
    obtain ⟨⟨r1, l⟩, W1, h1, h⟩ := h
    obtain ⟨q1, ⟨l0, q2, q3⟩, q4⟩ := distinctStep_false hv ht (hx (co, v) (List.mem_cons_self ..)) h1
    have l1 := lat_distinctStep.lat _ _ _ h1
    replace h := SM.bind_ok h
    obtain ⟨b, W2, h2, h⟩ := h
    obtain ⟨rfl, rfl⟩ := qTrue_iff.mp h2
    dsimp only at h
    split_ifs at h with hb
    · obtain ⟨rfl, rfl⟩ := pure_iff.mp h
      refine .inr ⟨rfl, [], (co, v), es, rfl, ?_, ⟨l0, q2, ?_⟩⟩
      · intro e' he'
        rw [List.nil_append, List.mem_singleton] at he'
        subst he'
        exact q1
      · rw [q3] at hb; exact hb
    · have ht1 := l1.ti ht
      have l2 := lat_distinctConsequence.lat _ _ _ h
      have hx' : ∀ e ∈ es, (if dir s e then upF (frame W2) e.2 else loF (frame W2) e.2) = x e := by
        intro e he
        rw [l1.frame]
        exact hx e (List.mem_cons_of_mem _ he)
      rcases distinctConsequence_false hv h ht1 hx' with ⟨r', rfl, p1, p2⟩ | ⟨rfl, pre, e, post, rfl, p1, p2⟩
      · refine .inl ⟨r', rfl, fun e he => ?_, fun y hy => ?_⟩
        · rcases List.mem_cons.mp he with rfl | he
          · exact q1.later hv ht1 l2
          · exact p1 e he
        · rcases p2 y hy with hy | hy | ⟨e, he, hy⟩
          · rcases List.mem_append.mp hy with hy | hy
            · rcases q4 y hy with hy | hy
              · exact .inl hy
              · exact .inr (.inl (mono_false hv l2.log hy))
            · rw [List.mem_singleton] at hy
              subst hy
              exact .inr (.inr ⟨(co, v), List.mem_cons_self .., l0, l2.lits ht1 _ _ _ q2, q3⟩)
          · exact .inr (.inl hy)
          · exact .inr (.inr ⟨e, List.mem_cons_of_mem _ he, hy⟩)
      · refine .inr ⟨rfl, (co, v) :: pre, e, post, rfl, fun e' he' => ?_, p2⟩
        rcases List.mem_cons.mp he' with rfl | he'
        · exact q1.later hv ht1 l2
        · exact p1 e' he'

/-! ### Pairs of elements -/

/-- A clause is added and accepted in which all literals except the one given are false. -/
def Posted (cc : CC) (W W' : World) (clit : Int) : Prop :=
  ∃ r L, (.clause r :: L) <:+ W'.log ∧ W.log <:+ L ∧ (∀ y ∈ r, y = -clit ∨ cc.isFalse L y = true) ∧ cc.accept (.clause r :: L) = true

theorem Posted.after {clit : Int} (hv : EnvMono cc) (h : Posted cc W W' clit) :
    ∃ r L, (.clause r :: L) <:+ W'.log ∧ W.log <:+ L ∧ ∀ y ∈ r, y = -clit ∨ cc.isFalse W'.log y = true := by
  obtain ⟨r, L, a1, a2, a3, -⟩ := h
  exact ⟨r, L, a1, a2, fun y hy => (a3 y hy).imp id (mono_false hv ((List.suffix_cons _ _).trans a1))⟩

theorem distinctPair_fixed (hv : EnvMono cc) (ht : TI W) {clit s : Int} {es : List (List (Int × Nat) × Int)} {i j : Nat} {ej : List (Int × Nat) × Int} {b : Bool} {x : Int × Nat → Int}
    (hj : es[j]? = some ej) (hx : ∀ e ∈ ej.1, (if dir s e then upF (frame W) e.2 else loF (frame W) e.2) = x e) (h : distinctPair cc clit es s i j W = .ok (b, W')) :
    (∃ r L, W'.log = .clause r :: L ∧ W.log <:+ L ∧ (∀ e ∈ ej.1, Fls cc W' e.2 (rk (x e) (dir s e))) ∧
      (∀ y ∈ r, y = -clit ∨ cc.isFalse L y = true ∨ ∃ e ∈ ej.1, Cons W' s x e y) ∧ b = cc.accept (.clause r :: L)) ∨
    (∃ pre e post, ej.1 = pre ++ e :: post ∧ (∀ e' ∈ pre ++ [e], Fls cc W' e'.2 (rk (x e') (dir s e'))) ∧ Tru cc W' e.2 (rk (x e) (!dir s e))) := by
  unfold distinctPair at h
  rw [hj] at h
  cases hi : es[i]? with
  | none => rw [hi] at h; cases h
  | some ei =>
    rw [hi] at h
    dsimp only at h
    replace h := SM.bind_ok h
    obtain ⟨r0, W1, h1, h⟩ := h
    obtain ⟨rfl, m1⟩ := pushReason_mem h1
    replace h := SM.bind_ok h
    obtain ⟨r1, W2, h2, h⟩ := h
    have l2 := lat_distinctReason.lat _ _ _ h2
    have m2 := distinctReason_false hv h2
    replace h := SM.bind_ok h
    obtain ⟨o, W3, h3, h⟩ := h
    have l3 := lat_distinctConsequence.lat _ _ _ h3
    rcases distinctConsequence_false (x := x) hv h3 (l2.ti ht) (by rw [l2.frame]; exact hx) with ⟨r', rfl, p1, p2⟩ | ⟨rfl, p⟩
    · left
      obtain ⟨hacc, e⟩ := addClause_iff.mp h
      have l4 := Lat.addClause.lat _ _ _ h
      have t3 := l3.ti (l2.ti ht)
      refine ⟨r', W3.log, by rw [e], l2.log.trans l3.log, fun e he => (p1 e he).later hv t3 l4, fun y hy => ?_, hacc⟩
      rcases p2 y hy with hy | hy | ⟨e, he, l0, hy, hy2⟩
      · rcases m2 y hy with hy | hy
        · rcases m1 y hy with hy | hy
          · cases hy
          · exact .inl hy
        · exact .inr (.inl (mono_false hv l3.log hy))
      · exact .inr (.inl hy)
      · exact .inr (.inr ⟨e, he, l0, l4.lits t3 _ _ _ hy, hy2⟩)
    · right
      obtain ⟨-, rfl⟩ := pure_iff.mp h
      exact p

theorem split_or {l pre post pre' post' : List α} {e e' : α} (h : l = pre ++ e :: post) (h' : l = pre' ++ e' :: post') : e ∈ pre' ++ [e'] ∨ e' ∈ pre ++ [e] := by
  rw [h] at h'
  rcases List.append_eq_append_iff.mp h' with ⟨a, h1, h2⟩ | ⟨a, h1, h2⟩
  · cases a with
    | nil => injection h2 with h2 h3; left; rw [h2]; simp
    | cons z a => injection h2 with h2 h3; left; rw [h1, h2]; simp
  · cases a with
    | nil => injection h2 with h2 h3; left; rw [h2]; simp
    | cons z a => injection h2 with h2 h3; right; rw [h1, h2]; simp

theorem dir_neg {e : Int × Nat} (h : e.1 ≠ 0) : dir (-1) e = !dir 1 e := by
  unfold dir
  by_cases h1 : e.1 > 0
  · rw [decide_eq_false (by omega), decide_eq_true (by omega)]; rfl
  · rw [decide_eq_true (by omega), decide_eq_false (by omega)]; rfl

/-- Both directions for elements that are fixed. -/
theorem distinct_both (hv : EnvMono cc) {Wa Wb : World} (hta : TI Wa) {clit : Int} {es : List (List (Int × Nat) × Int)} {i j : Nat} {ej : List (Int × Nat) × Int} {b : Bool} {x : Int × Nat → Int}
    (hj : es[j]? = some ej) (h0 : ∀ e ∈ ej.1, e.1 ≠ 0) (hx : ∀ e ∈ ej.1, loF (frame Wa) e.2 = x e ∧ upF (frame Wa) e.2 = x e)
    (h : distinctPair cc clit es 1 i j Wa = .ok (b, W)) (hl : Later W Wb) (h' : distinctPair cc clit es (-1) i j Wb = .ok (true, W')) : Posted cc Wa W' clit := by
  have l1 := lat_distinctPair.lat _ _ _ h
  have l2 := lat_distinctPair.lat _ _ _ h'
  have t1 := l1.ti hta
  have t2 := hl.ti t1
  have l3 := hl.trans l2
  have t3 := l3.ti t1
  have p1 := distinctPair_fixed (x := x) hv hta hj (fun e he => by obtain ⟨a, b⟩ := hx e he; rw [a, b, ite_self]) h
  have p2 := distinctPair_fixed (x := x) hv t2 hj (by rw [hl.frame, l1.frame]; exact fun e he => by obtain ⟨a, b⟩ := hx e he; rw [a, b, ite_self]) h'
  rcases p1 with ⟨r, L, q1, q2, q3, q4, -⟩ | ⟨pre, e, post, q1, q2, q3⟩
  · rcases p2 with ⟨r', L', u1, u2, u3, u4, u5⟩ | ⟨pre', e', post', u1, u2, u3⟩
    · have hWL : W.log <:+ L' := hl.log.trans u2
      refine ⟨r', L', by rw [u1], l1.log.trans hWL, fun y hy => ?_, u5.symm⟩
      rcases u4 y hy with hy | hy | ⟨e, he, l0, hy1, hy2⟩
      · exact .inl hy
      · exact .inr hy
      · right
        obtain ⟨l0', z1, z2⟩ := q3 e he
        rw [dir_neg (h0 e he), Bool.not_not] at hy1 hy2
        have := hy1.unique t3.wf (l3.lits t1 _ _ _ z1)
        rw [hy2, this]
        exact mono_false hv hWL z2
    · exfalso
      have he' : e' ∈ ej.1 := by rw [u1]; simp
      have f1 := (q3 e' he').later hv t1 l3
      rw [dir_neg (h0 e' he'), Bool.not_not] at u3
      exact f1.not_tru t3 u3
  · exfalso
    have he : e ∈ ej.1 := by rw [q1]; simp
    have g1 := q3.later hv t1 l3
    rcases p2 with ⟨r', L', u1, u2, u3, u4, -⟩ | ⟨pre', e', post', u1, u2, u3⟩
    · have f1 := u3 e he
      rw [dir_neg (h0 e he)] at f1
      exact f1.not_tru t3 g1
    · have he' : e' ∈ ej.1 := by rw [u1]; simp
      rcases split_or q1 u1 with hm | hm
      · have f1 := u2 e hm
        rw [dir_neg (h0 e he)] at f1
        exact f1.not_tru t3 g1
      · have f1 := (q2 e' hm).later hv t1 l3
        rw [dir_neg (h0 e' he'), Bool.not_not] at u3
        exact f1.not_tru t3 u3

theorem distinctPairs_mem {clit s : Int} {es : List (List (Int × Nat) × Int)} {i j : Nat} (hij : j ≠ i) : ∀ {js : List Nat} {W W' : World}, distinctPairs cc clit es s i js W = .ok (true, W') → j ∈ js →
    ∃ Wa Wb, Later W Wa ∧ distinctPair cc clit es s i j Wa = .ok (true, Wb) ∧ Later Wb W'
  | [], W, W', h, hm => by cases hm
  | k :: js, W, W', h, hm => by
    unfold distinctPairs at h
    split_ifs at h with hk
    · rcases List.mem_cons.mp hm with rfl | hm
      · exact absurd hk hij
      · exact distinctPairs_mem hij h hm
    · obtain ⟨b, W1, h1, h2⟩ := SM.bind_ok h
      cases b with
      | false => obtain ⟨e, -⟩ := pure_iff.mp h2; cases e
      | true =>
        have h2 : distinctPairs cc clit es s i js W1 = .ok (true, W') := h2
        rcases List.mem_cons.mp hm with rfl | hm
        · exact ⟨W, W1, Later.refl, h1, lat_distinctPairs.lat _ _ _ h2⟩
        · obtain ⟨Wa, Wb, a1, a2, a3⟩ := distinctPairs_mem hij h2 hm
          exact ⟨Wa, Wb, (lat_distinctPair.lat _ _ _ h1).trans a1, a2, a3⟩

theorem Posted.ext (hv : EnvMono cc) {Wa Wb : World} {clit : Int} (h1 : Later Wa W) (h : Posted cc W W' clit) (h2 : Later W' Wb) : Posted cc Wa Wb clit := by
  obtain ⟨r, L, a, b, c⟩ := h
  exact ⟨r, L, a.trans h2.log, h1.log.trans b, c⟩

theorem distinctAssigned_fixed (hv : EnvMono cc) (ht : TI W) {c : CState} {clit value : Int} {es : List (List (Int × Nat) × Int)} {i j : Nat} {ej : List (Int × Nat) × Int} {x : Int × Nat → Int}
    (hij : j ≠ i) (hj : es[j]? = some ej) (h0 : ∀ e ∈ ej.1, e.1 ≠ 0) (hx : ∀ e ∈ ej.1, loF (frame W) e.2 = x e ∧ upF (frame W) e.2 = x e)
    (hu : (value, j) ∈ c.upperSet) (hl : (value, j) ∈ c.lowerSet) (h : distinctAssigned cc c clit es value i W = .ok (true, W')) : Posted cc W W' clit := by
  unfold distinctAssigned at h
  obtain ⟨b, W1, h1, h2⟩ := SM.bind_ok h
  cases b with
  | false => obtain ⟨e, -⟩ := pure_iff.mp h2; cases e
  | true =>
    have h2 : distinctPairs cc clit es (-1) i (boundRange value c.lowerSet) W1 = .ok (true, W') := h2
    obtain ⟨Wa, Wb, a1, a2, a3⟩ := distinctPairs_mem hij h1 (mem_boundRange.mpr hu)
    obtain ⟨Wc, Wd, b1, b2, b3⟩ := distinctPairs_mem hij h2 (mem_boundRange.mpr hl)
    exact (distinct_both hv (a1.ti ht) hj h0 (by rw [a1.frame]; exact hx) a2 (a3.trans b1) b2).ext hv a1 b3

theorem distinctTodo_mem {c : CState} {clit s value : Int} {es : List (List (Int × Nat) × Int)} {i : Nat} (ha : c.assigned[i]? = some (value, value)) :
    ∀ {is : List Nat} {W W' : World}, distinctTodo cc c clit es s is W = .ok (true, W') → i ∈ is →
    ∃ Wa Wb, Later W Wa ∧ distinctAssigned cc c clit es value i Wa = .ok (true, Wb) ∧ Later Wb W'
  | [], W, W', h, hm => by cases hm
  | k :: is, W, W', h, hm => by
    unfold distinctTodo at h
    cases hk : c.assigned[k]? with
    | none => rw [hk] at h; cases h
    | some p =>
      obtain ⟨lower, upper⟩ := p
      rw [hk] at h
      dsimp only at h
      obtain ⟨b, W1, h1, h2⟩ := SM.bind_ok h
      cases b with
      | false => obtain ⟨e, -⟩ := pure_iff.mp h2; cases e
      | true =>
        have h2 : distinctTodo cc c clit es s is W1 = .ok (true, W') := h2
        by_cases e : i = k
        · subst e
          rw [ha] at hk
          injection hk with hk
          obtain ⟨rfl, rfl⟩ := Prod.mk.inj hk
          rw [if_pos rfl] at h1
          exact ⟨W, W1, Later.refl, h1, lat_distinctTodo.lat _ _ _ h2⟩
        · obtain ⟨Wa, Wb, a1, a2, a3⟩ := distinctTodo_mem ha h2 ((List.mem_cons.mp hm).resolve_left e)
          refine ⟨Wa, Wb, Later.trans ?_ a1, a2, a3⟩
          by_cases hlu : lower = upper
          · rw [if_pos hlu] at h1; exact lat_distinctAssigned.lat _ _ _ h1
          · rw [if_neg hlu] at h1
            generalize firstAssigned c (if s < 0 then boundRange lower c.lowerSet else boundRange upper c.upperSet) = o at h1
            cases o with
            | none => exact Lat.pure.lat _ _ _ h1
            | some j => exact lat_distinctPair.lat _ _ _ h1

theorem sums_fixed {es : List (Int × Nat)} {lo up : Nat → Int} (h : ∀ e ∈ es, lo e.2 = up e.2) : lowSum lo up es = upSum lo up es := by
  induction es with
  | nil => rfl
  | cons e es ih =>
    have a := h e (List.mem_cons_self ..)
    have b := ih (fun e' he' => h e' (List.mem_cons_of_mem _ he'))
    have c1 : lowSum lo up (e :: es) = (if e.1 > 0 then e.1 * lo e.2 else e.1 * up e.2) + lowSum lo up es := rfl
    have c2 : upSum lo up (e :: es) = (if e.1 > 0 then e.1 * up e.2 else e.1 * lo e.2) + upSum lo up es := rfl
    rw [c1, c2, b, a]

/-- Propagation of a distinct constraint in which an element waiting to be propagated and another one have the same fixed value. -/
theorem distinctPropagate_detect {n i j : Nat} {clit : Int} {es : List (List (Int × Nat) × Int)} {c : CState} {ei ej : List (Int × Nat) × Int} (hv : EnvMono cc) (ht : TI W)
    (hcs : W.book.cs[n]? = some c) (hcon : c.con = .distinct clit es) (hct : Counted c (loF (frame W)) (upF (frame W)))
    (hi : es[i]? = some ei) (hj : es[j]? = some ej) (hij : i ≠ j) (hm : i ∈ c.todoLower ∨ i ∈ c.todoUpper) (h0 : ∀ e ∈ ej.1, e.1 ≠ 0)
    (hfi : ∀ e ∈ ei.1, loF (frame W) e.2 = upF (frame W) e.2) (hfj : ∀ e ∈ ej.1, loF (frame W) e.2 = upF (frame W) e.2)
    (heq : lowSum (loF (frame W)) (upF (frame W)) ei.1 + ei.2 = lowSum (loF (frame W)) (upF (frame W)) ej.1 + ej.2)
    (h : distinctPropagate cc n clit es W = .ok (true, W')) : Posted cc W W' clit := by
  unfold distinctPropagate at h
  obtain ⟨c0, W1, h1, h2⟩ := SM.bind_ok h
  obtain ⟨⟨hcs', -⟩, rfl⟩ := getCS_iff.mp h1
  rw [hcs] at hcs'
  injection hcs' with hcs'
  subst hcs'
  obtain ⟨c', W2, h3, h4⟩ := SM.bind_ok h2
  obtain ⟨u, W3, h5, h6⟩ := SM.bind_ok h4
  unfold Counted Mid at hct
  rw [hcon] at hct
  obtain ⟨k1, k2, k3, k4⟩ := hct
  obtain ⟨rfl, r2, r3, r4, r5, r6, q1, q2, -⟩ := distinctUpdate_eff h3 k1.mark k1.low k1.upp k1.nodupL k1.nodupU k1.todo k3 k4
  injection h5 with h5
  obtain ⟨-, rfl⟩ := Prod.mk.inj h5
  set W3 : World := { W2 with book.cs := W2.book.cs.set n c' } with hW3
  have ht3 : TI W3 := ht.other rfl rfl rfl
  have vi := r6 i ei hi
  have vj := r6 j ej hj
  rw [← sums_fixed hfi] at vi
  rw [← sums_fixed hfj, ← heq] at vj
  have key : ∀ {s : Int} {is : List Nat} {Wa Wb : World}, Later W3 Wa → i ∈ is → distinctTodo cc c' clit es s is Wa = .ok (true, Wb) → Posted cc W2 Wb clit := by
    intro s is Wa Wb hl hm h
    obtain ⟨Wc, Wd, a1, a2, a3⟩ := distinctTodo_mem vi h hm
    have l := hl.trans a1
    obtain ⟨r, L, b1, b2, b3⟩ := (distinctAssigned_fixed (x := fun e => upF (frame W2) e.2) hv (l.ti ht3) (Ne.symm hij) hj h0
      (by rw [l.frame]; exact fun e he => ⟨hfj e he, rfl⟩) ((r3.upp _ _).mpr ⟨_, vj, rfl⟩) ((r3.low _ _).mpr ⟨_, vj, rfl⟩) a2).ext hv l a3
    exact ⟨r, L, b1, b2, b3⟩
  obtain ⟨b, W4, h7, h8⟩ := SM.bind_ok h6
  cases b with
  | false => obtain ⟨e, -⟩ := pure_iff.mp h8; cases e
  | true =>
    obtain ⟨b, W5, h9, h10⟩ := SM.bind_ok h8
    cases b with
    | false => obtain ⟨e, -⟩ := pure_iff.mp h10; cases e
    | true =>
      obtain ⟨c2, W6, h11, h12⟩ := SM.bind_ok h10
      obtain ⟨-, rfl⟩ := getCS_iff.mp h11
      obtain ⟨u2, W7, h13, h14⟩ := SM.bind_ok h12
      obtain ⟨-, rfl⟩ := pure_iff.mp h14
      injection h13 with h13
      obtain ⟨-, rfl⟩ := Prod.mk.inj h13
      show Posted cc W2 _ clit
      have l4 := lat_distinctTodo.lat _ _ _ h7
      have l5 := lat_distinctTodo.lat _ _ _ h9
      have fin : Posted cc W2 W6 clit := by
        rcases hm with hm | hm
        · obtain ⟨r, L, b1, b2, b3⟩ := key Later.refl (by rw [q1]; exact hm) h7
          exact ⟨r, L, b1.trans l5.log, b2, b3⟩
        · exact key l4 (by rw [q2]; exact hm) h9
      exact fin

/-! ### Elements with a bound that is the value of another element -/

theorem distinctTodo_pair {c : CState} {clit s lower upper : Int} {es : List (List (Int × Nat) × Int)} {i j : Nat} (ha : c.assigned[i]? = some (lower, upper)) (hn : lower ≠ upper)
    (hf : firstAssigned c (if s < 0 then boundRange lower c.lowerSet else boundRange upper c.upperSet) = some j) :
    ∀ {is : List Nat} {W W' : World}, distinctTodo cc c clit es s is W = .ok (true, W') → i ∈ is →
    ∃ Wa Wb, Later W Wa ∧ distinctPair cc clit es s j i Wa = .ok (true, Wb) ∧ Later Wb W'
  | [], W, W', h, hm => by cases hm
  | k :: is, W, W', h, hm => by
    unfold distinctTodo at h
    cases hk : c.assigned[k]? with
    | none => rw [hk] at h; cases h
    | some p =>
      obtain ⟨lo, up⟩ := p
      rw [hk] at h
      dsimp only at h
      obtain ⟨b, W1, h1, h2⟩ := SM.bind_ok h
      cases b with
      | false => obtain ⟨e, -⟩ := pure_iff.mp h2; cases e
      | true =>
        have h2 : distinctTodo cc c clit es s is W1 = .ok (true, W') := h2
        by_cases e : i = k
        · subst e
          rw [ha] at hk
          injection hk with hk
          obtain ⟨rfl, rfl⟩ := Prod.mk.inj hk
          rw [if_neg hn, hf] at h1
          exact ⟨W, W1, Later.refl, h1, lat_distinctTodo.lat _ _ _ h2⟩
        · obtain ⟨Wa, Wb, a1, a2, a3⟩ := distinctTodo_pair ha hn hf h2 ((List.mem_cons.mp hm).resolve_left e)
          refine ⟨Wa, Wb, Later.trans ?_ a1, a2, a3⟩
          by_cases hlu : lo = up
          · rw [if_pos hlu] at h1; exact lat_distinctAssigned.lat _ _ _ h1
          · rw [if_neg hlu] at h1
            generalize firstAssigned c (if s < 0 then boundRange lo c.lowerSet else boundRange up c.upperSet) = o at h1
            cases o with
            | none => exact Lat.pure.lat _ _ _ h1
            | some j => exact lat_distinctPair.lat _ _ _ h1

theorem distinctAssigned_pair {c : CState} {clit s value : Int} {es : List (List (Int × Nat) × Int)} {i j : Nat} (hij : i ≠ j) (hs : s = 1 ∨ s = -1)
    (hm : (value, i) ∈ if s < 0 then c.lowerSet else c.upperSet) (h : distinctAssigned cc c clit es value j W = .ok (true, W')) :
    ∃ Wa Wb, Later W Wa ∧ distinctPair cc clit es s j i Wa = .ok (true, Wb) ∧ Later Wb W' := by
  unfold distinctAssigned at h
  obtain ⟨b, W1, h1, h2⟩ := SM.bind_ok h
  cases b with
  | false => obtain ⟨e, -⟩ := pure_iff.mp h2; cases e
  | true =>
    have h2 : distinctPairs cc clit es (-1) j (boundRange value c.lowerSet) W1 = .ok (true, W') := h2
    rcases hs with rfl | rfl
    · rw [if_neg (by decide)] at hm
      obtain ⟨Wa, Wb, a1, a2, a3⟩ := distinctPairs_mem hij h1 (mem_boundRange.mpr hm)
      exact ⟨Wa, Wb, a1, a2, a3.trans (lat_distinctPairs.lat _ _ _ h2)⟩
    · rw [if_pos (by decide)] at hm
      obtain ⟨Wa, Wb, a1, a2, a3⟩ := distinctPairs_mem hij h2 (mem_boundRange.mpr hm)
      exact ⟨Wa, Wb, (lat_distinctPairs.lat _ _ _ h1).trans a1, a2, a3⟩

/-- The bound of a variable at which its term is greatest (`s = 1`) or least (`s = -1`). -/
def extremeAt (F : List VarState × Book) (s : Int) (e : Int × Nat) : Int := if dir s e then upF F e.2 else loF F e.2

/-- A clause is added in which all literals are false except the one given and the ones that move the bound of an element, or one of the latter is true. -/
def Moved (cc : CC) (W W' : World) (clit s : Int) (x : Int × Nat → Int) (ei : List (Int × Nat)) : Prop :=
  (∃ r L, (.clause r :: L) <:+ W'.log ∧ W.log <:+ L ∧ ∀ y ∈ r, y = -clit ∨ cc.isFalse W'.log y = true ∨ ∃ e ∈ ei, Cons W' s x e y) ∨
  ∃ e ∈ ei, ∃ y, Cons W' s x e y ∧ cc.isTrue W'.log y = true

theorem distinctPair_moved (hv : EnvMono cc) (ht : TI W) {clit s : Int} {es : List (List (Int × Nat) × Int)} {i j : Nat} {ei : List (Int × Nat) × Int} {b : Bool}
    (hi : es[i]? = some ei) (h : distinctPair cc clit es s j i W = .ok (b, W')) : Moved cc W W' clit s (extremeAt (frame W) s) ei.1 := by
  rcases distinctPair_fixed (x := extremeAt (frame W) s) hv ht hi (fun e he => rfl) h with ⟨r, L, a1, a2, -, a4, -⟩ | ⟨pre, e, post, a1, -, l0, a3, a4⟩
  · exact .inl ⟨r, L, by rw [a1], a2, fun y hy => (a4 y hy).imp id (Or.imp (mono_false hv (by rw [a1]; exact List.suffix_cons _ _)) id)⟩
  · exact .inr ⟨e, by rw [a1]; simp, _, ⟨l0, a3, rfl⟩, a4⟩

theorem Moved.ext (hv : EnvMono cc) {Wa Wb : World} {clit s : Int} {x : Int × Nat → Int} {ei : List (Int × Nat)} (h1 : Wa.log <:+ W.log) (ht : TI W') (h : Moved cc W W' clit s x ei)
    (h2 : Later W' Wb) : Moved cc Wa Wb clit s x ei := by
  have key : ∀ {e y}, Cons W' s x e y → Cons Wb s x e y := fun ⟨l0, a, b⟩ => ⟨l0, h2.lits ht _ _ _ a, b⟩
  rcases h with ⟨r, L, a, b, c⟩ | ⟨e, he, y, a, b⟩
  · refine .inl ⟨r, L, a.trans h2.log, h1.trans b, fun y hy => ?_⟩
    rcases c y hy with c | c | ⟨e, he, c⟩
    · exact .inl c
    · exact .inr (.inl (mono_false hv h2.log c))
    · exact .inr (.inr ⟨e, he, key c⟩)
  · exact .inr ⟨e, he, y, key a, mono_true hv h2.log b⟩

/-- Propagation of a distinct constraint in which an element waiting to be propagated has a bound that is the value of another one. -/
theorem distinctPropagate_bound {n i j : Nat} {clit s : Int} {es : List (List (Int × Nat) × Int)} {c : CState} {ei ej : List (Int × Nat) × Int} (hv : EnvMono cc) (ht : TI W)
    (hcs : W.book.cs[n]? = some c) (hcon : c.con = .distinct clit es) (hct : Counted c (loF (frame W)) (upF (frame W)))
    (hi : es[i]? = some ei) (hj : es[j]? = some ej) (hs : s = 1 ∧ i ∈ c.todoUpper ∨ s = -1 ∧ i ∈ c.todoLower)
    (hn : lowSum (loF (frame W)) (upF (frame W)) ei.1 ≠ upSum (loF (frame W)) (upF (frame W)) ei.1) (hfj : ∀ e ∈ ej.1, loF (frame W) e.2 = upF (frame W) e.2)
    (heq : (if s < 0 then lowSum (loF (frame W)) (upF (frame W)) ei.1 else upSum (loF (frame W)) (upF (frame W)) ei.1) + ei.2 = lowSum (loF (frame W)) (upF (frame W)) ej.1 + ej.2)
    (h : distinctPropagate cc n clit es W = .ok (true, W')) : Moved cc W W' clit s (extremeAt (frame W) s) ei.1 := by
  unfold distinctPropagate at h
  obtain ⟨c0, W1, h1, h2⟩ := SM.bind_ok h
  obtain ⟨⟨hcs', -⟩, rfl⟩ := getCS_iff.mp h1
  rw [hcs] at hcs'
  injection hcs' with hcs'
  subst hcs'
  obtain ⟨c', W2, h3, h4⟩ := SM.bind_ok h2
  obtain ⟨u, W3, h5, h6⟩ := SM.bind_ok h4
  unfold Counted Mid at hct
  rw [hcon] at hct
  obtain ⟨k1, k2, k3, k4⟩ := hct
  obtain ⟨rfl, r2, r3, r4, r5, r6, q1, q2, q3, q4⟩ := distinctUpdate_eff h3 k1.mark k1.low k1.upp k1.nodupL k1.nodupU k1.todo k3 k4
  injection h5 with h5
  obtain ⟨-, rfl⟩ := Prod.mk.inj h5
  set W3 : World := { W2 with book.cs := W2.book.cs.set n c' } with hW3
  have ht3 : TI W3 := ht.other rfl rfl rfl
  have vi := r6 i ei hi
  have vj := r6 j ej hj
  rw [← sums_fixed hfj] at vj
  generalize hval : lowSum (loF (frame W2)) (upF (frame W2)) ej.1 + ej.2 = val at heq vj
  generalize hlo : lowSum (loF (frame W2)) (upF (frame W2)) ei.1 = lo at heq vi hn
  generalize hup : upSum (loF (frame W2)) (upF (frame W2)) ei.1 = up at heq vi hn
  have hs' : s = 1 ∨ s = -1 := hs.imp And.left And.left
  -- the sets of bounds
  have mi : (val, i) ∈ if s < 0 then c'.lowerSet else c'.upperSet := by
    rcases hs' with rfl | rfl
    · rw [if_neg (by decide)] at heq ⊢
      exact (r3.upp _ _).mpr ⟨_, vi, heq⟩
    · rw [if_pos (by decide)] at heq ⊢
      exact (r3.low _ _).mpr ⟨_, vi, heq⟩
  have mj : (val, j) ∈ if s < 0 then c'.lowerSet else c'.upperSet := by
    split_ifs
    · exact (r3.low _ _).mpr ⟨_, vj, rfl⟩
    · exact (r3.upp _ _).mpr ⟨_, vj, rfl⟩
  have hrange : (if s < 0 then boundRange (lo + ei.2) c'.lowerSet else boundRange (up + ei.2) c'.upperSet) = boundRange val (if s < 0 then c'.lowerSet else c'.upperSet) := by
    split_ifs at heq ⊢ with h0 <;> rw [heq]
  -- the first element with a value that is the bound
  obtain ⟨k, hk⟩ : ∃ k, (boundRange val (if s < 0 then c'.lowerSet else c'.upperSet)).find? (fun j => (c'.assigned.getD j (0, 1)).1 == (c'.assigned.getD j (0, 1)).2) = some k := by
    apply Option.isSome_iff_exists.mp
    rw [List.find?_isSome]
    exact ⟨j, mem_boundRange.mpr mj, by rw [List.getD_eq_getElem?_getD, vj]; simp⟩
  have hk1 := List.find?_some hk
  have hk2 := mem_boundRange.mp (List.mem_of_find?_eq_some hk)
  have vk : c'.assigned[k]? = some (val, val) := by
    have : ∃ q, c'.assigned[k]? = some q ∧ (q.1 = val ∨ q.2 = val) := by
      split_ifs at hk2
      · obtain ⟨q, a, b⟩ := (r3.low _ _).mp hk2; exact ⟨q, a, .inl b⟩
      · obtain ⟨q, a, b⟩ := (r3.upp _ _).mp hk2; exact ⟨q, a, .inr b⟩
    obtain ⟨⟨a, b⟩, e1, e2⟩ := this
    rw [List.getD_eq_getElem?_getD, e1] at hk1
    have e3 : a = b := by simpa using hk1
    subst e3
    rw [e1]
    rcases e2 with e2 | e2 <;> (dsimp only at e2; rw [e2])
  have hik : i ≠ k := by
    rintro rfl
    rw [vi] at vk
    injection vk with vk
    obtain ⟨e1, e2⟩ := Prod.mk.inj vk
    exact hn (by linarith)
  have viaK : ∀ {t : Int} {is : List Nat} {Wa Wb : World}, k ∈ is → distinctTodo cc c' clit es t is Wa = .ok (true, Wb) →
      ∃ Wc Wd, Later Wa Wc ∧ distinctPair cc clit es s k i Wc = .ok (true, Wd) ∧ Later Wd Wb := by
    intro t is Wa Wb hm h
    obtain ⟨Wc, Wd, a1, a2, a3⟩ := distinctTodo_mem vk h hm
    obtain ⟨We, Wf, b1, b2, b3⟩ := distinctAssigned_pair hik hs' mi a2
    exact ⟨We, Wf, a1.trans b1, b2, b3.trans a3⟩
  have viaI : ∀ {is : List Nat} {Wa Wb : World}, ¬ (c'.inTodoLower.getD k false = true ∨ c'.inTodoUpper.getD k false = true) → i ∈ is →
      distinctTodo cc c' clit es s is Wa = .ok (true, Wb) → ∃ Wc Wd, Later Wa Wc ∧ distinctPair cc clit es s k i Wc = .ok (true, Wd) ∧ Later Wd Wb := by
    intro is Wa Wb hq hm h
    refine distinctTodo_pair vi (fun e => hn (by linarith)) ?_ h hm
    rw [hrange]
    unfold firstAssigned
    rw [hk]
    dsimp only
    rw [if_neg (by simpa using hq)]
  obtain ⟨b, W4, h7, h8⟩ := SM.bind_ok h6
  cases b with
  | false => obtain ⟨e, -⟩ := pure_iff.mp h8; cases e
  | true =>
    obtain ⟨b, W5, h9, h10⟩ := SM.bind_ok h8
    cases b with
    | false => obtain ⟨e, -⟩ := pure_iff.mp h10; cases e
    | true =>
      obtain ⟨c2, W6, h11, h12⟩ := SM.bind_ok h10
      obtain ⟨-, rfl⟩ := getCS_iff.mp h11
      obtain ⟨u2, W7, h13, h14⟩ := SM.bind_ok h12
      obtain ⟨-, rfl⟩ := pure_iff.mp h14
      injection h13 with h13
      obtain ⟨-, rfl⟩ := Prod.mk.inj h13
      have l4 := lat_distinctTodo.lat _ _ _ h7
      have l5 := lat_distinctTodo.lat _ _ _ h9
      obtain ⟨Wc, Wd, a1, a2, a3⟩ : ∃ Wc Wd, Later W3 Wc ∧ distinctPair cc clit es s k i Wc = .ok (true, Wd) ∧ Later Wd W6 := by
        have first : ∀ {Wc Wd}, Later W3 Wc → distinctPair cc clit es s k i Wc = .ok (true, Wd) → Later Wd W4 →
            ∃ Wc Wd, Later W3 Wc ∧ distinctPair cc clit es s k i Wc = .ok (true, Wd) ∧ Later Wd W6 := fun a b c => ⟨_, _, a, b, c.trans l5⟩
        by_cases hq : c'.inTodoLower.getD k false = true ∨ c'.inTodoUpper.getD k false = true
        · have hq' := hq
          rw [q3, q4] at hq'
          rcases Or.imp (k1.todo.1 k) (k1.todo.2 k) hq' with hm | hm
          · obtain ⟨_, _, a, b, d⟩ := viaK (by rw [q1]; exact hm) h7
            exact first a b d
          · obtain ⟨_, _, a, b, d⟩ := viaK (by rw [q2]; exact hm) h9
            exact ⟨_, _, l4.trans a, b, d⟩
        · rcases hs with ⟨rfl, hm⟩ | ⟨rfl, hm⟩
          · obtain ⟨_, _, a, b, d⟩ := viaI hq (by rw [q2]; exact hm) h9
            exact ⟨_, _, l4.trans a, b, d⟩
          · obtain ⟨_, _, a, b, d⟩ := viaI hq (by rw [q1]; exact hm) h7
            exact first a b d
      have hmv := distinctPair_moved hv (a1.ti ht3) hi a2
      rw [a1.frame, show extremeAt (frame W3) s = extremeAt (frame W2) s from rfl] at hmv
      have tD := (lat_distinctPair.lat _ _ _ a2).ti (a1.ti ht3)
      have fin : Moved cc W2 W6 clit s (extremeAt (frame W2) s) ei.1 := hmv.ext hv a1.log tD a3
      exact fin

/-! ### Failure -/

/-- The computation only fails if a clause is refused. -/
structure Ref (cc : CC) (x : SM Bool) : Prop where
  ref : ∀ W W', x W = .ok (false, W') → ∃ r L, (.clause r :: L) <:+ W'.log ∧ W.log <:+ L ∧ cc.accept (.clause r :: L) = false

theorem Ref.true : Ref cc (Pure.pure true) := ⟨fun W W' h => by obtain ⟨e, -⟩ := pure_iff.mp h; cases e⟩
theorem Ref.addClause {r : List Int} : Ref cc (addClause cc r) := ⟨fun W W' h => by
  obtain ⟨e, rfl⟩ := addClause_iff.mp h
  exact ⟨r, W.log, List.suffix_refl _, List.suffix_refl _, e.symm⟩⟩
theorem Ref.after {x : SM α} {f : α → SM Bool} (hx : Lat x) (hf : ∀ a, Ref cc (f a)) : Ref cc (x >>= f) := ⟨fun W W' h => by
  obtain ⟨a, W1, h1, h2⟩ := SM.bind_ok h
  obtain ⟨r, L, a1, a2, a3⟩ := (hf a).ref _ _ h2
  exact ⟨r, L, a1, (hx.lat _ _ _ h1).log.trans a2, a3⟩⟩
theorem Ref.seq {x y : SM Bool} (hl : Lat x) (hx : Ref cc x) (hy : Ref cc y) : Ref cc (x >>= fun ok => if !ok then Pure.pure false else y) := ⟨fun W W' h => by
  obtain ⟨b, W1, h1, h2⟩ := SM.bind_ok h
  cases b with
  | false => obtain ⟨-, rfl⟩ := pure_iff.mp h2; exact hx.ref _ _ h1
  | true =>
    obtain ⟨r, L, a1, a2, a3⟩ := hy.ref _ _ h2
    exact ⟨r, L, a1, (hl.lat _ _ _ h1).log.trans a2, a3⟩⟩
theorem Ref.ub : Ref cc (SM.ub : SM Bool) := ⟨fun W W' h => by cases h⟩

theorem ref_distinctPair {clit s : Int} {es : List (List (Int × Nat) × Int)} {i j : Nat} : Ref cc (distinctPair cc clit es s i j) := by
  unfold distinctPair
  split
  · refine Ref.after lat_pushReason (fun r => Ref.after lat_distinctReason (fun r => Ref.after lat_distinctConsequence (fun o => ?_)))
    cases o with
    | none => exact Ref.true
    | some r => exact Ref.addClause
  · exact Ref.ub
theorem ref_distinctPairs {clit s : Int} {es : List (List (Int × Nat) × Int)} {i : Nat} {js : List Nat} : Ref cc (distinctPairs cc clit es s i js) := by
  induction js with
  | nil => exact Ref.true
  | cons j js ih =>
    unfold distinctPairs
    split
    · exact ih
    · exact Ref.seq lat_distinctPair ref_distinctPair ih
theorem ref_distinctAssigned {c : CState} {clit x : Int} {es : List (List (Int × Nat) × Int)} {i : Nat} : Ref cc (distinctAssigned cc c clit es x i) := by
  unfold distinctAssigned
  exact Ref.seq lat_distinctPairs ref_distinctPairs ref_distinctPairs
theorem ref_distinctTodo {c : CState} {clit s : Int} {es : List (List (Int × Nat) × Int)} {is : List Nat} : Ref cc (distinctTodo cc c clit es s is) := by
  induction is with
  | nil => exact Ref.true
  | cons i is ih =>
    unfold distinctTodo
    cases c.assigned[i]? with
    | none => exact Ref.ub
    | some p =>
      obtain ⟨lower, upper⟩ := p
      dsimp only
      refine Ref.seq ?_ ?_ ih
      · split
        · exact lat_distinctAssigned
        · split
          · exact Lat.pure
          · exact lat_distinctPair
      · split
        · exact ref_distinctAssigned
        · split
          · exact Ref.true
          · exact ref_distinctPair

theorem distinctUpdate_same {es : List (List (Int × Nat) × Int)} : ∀ {is : List Nat} {c c' : CState} {W W' : World}, distinctUpdate es is c W = .ok (c', W') → W' = W
  | [], c, c', W, W', h => (pure_iff.mp h).2
  | i :: is, c, c', W, W', h => by
    unfold distinctUpdate at h
    cases he : es[i]? with
    | none => rw [he] at h; cases h
    | some e =>
      cases ha : c.assigned[i]? with
      | none => rw [he, ha] at h; cases h
      | some old =>
        rw [he, ha] at h
        dsimp only at h
        obtain ⟨S, W1, g1, h5⟩ := SM.bind_ok h
        obtain ⟨-, rfl⟩ := liftRes_iff.mp g1
        obtain ⟨U, W2, g2, h6⟩ := SM.bind_ok h5
        obtain ⟨-, rfl⟩ := liftRes_iff.mp g2
        obtain ⟨p, W3, g3, h7⟩ := SM.bind_ok h6
        obtain ⟨rfl, -⟩ := sumBounds_eff g3
        exact distinctUpdate_same h7

theorem distinctPropagate_refuse {n : Nat} {clit : Int} {es : List (List (Int × Nat) × Int)} (h : distinctPropagate cc n clit es W = .ok (false, W')) :
    ∃ r L, (.clause r :: L) <:+ W'.log ∧ W.log <:+ L ∧ cc.accept (.clause r :: L) = false := by
  unfold distinctPropagate at h
  obtain ⟨c0, W1, h1, h2⟩ := SM.bind_ok h
  obtain ⟨-, rfl⟩ := getCS_iff.mp h1
  obtain ⟨c', W2, h3, h4⟩ := SM.bind_ok h2
  have e := distinctUpdate_same h3
  obtain ⟨u, W3, h5, h6⟩ := SM.bind_ok h4
  injection h5 with h5
  obtain ⟨-, rfl⟩ := Prod.mk.inj h5
  have key : Ref cc (do
      if !(← distinctTodo cc c' clit es (-1) c'.todoLower) then return false
      else if !(← distinctTodo cc c' clit es 1 c'.todoUpper) then return false
      else do
        let c ← getCS n
        setCS n c.clearTodo
        return true) := by
    refine Ref.seq lat_distinctTodo ref_distinctTodo (Ref.seq lat_distinctTodo ref_distinctTodo ⟨fun W W' h => ?_⟩)
    obtain ⟨c2, W6, h11, h12⟩ := SM.bind_ok h
    obtain ⟨u2, W7, h13, h14⟩ := SM.bind_ok h12
    obtain ⟨e, -⟩ := pure_iff.mp h14
    cases e
  obtain ⟨r, L, a1, a2, a3⟩ := key.ref _ _ h6
  exact ⟨r, L, a1, by rw [← e]; exact a2, a3⟩

end Clingcon
