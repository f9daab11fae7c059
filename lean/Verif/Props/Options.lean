import Verif.Proof.Options

/-! Configuration of the solver: thread specific options (C43, C44), numeric options (C45), and registration (C51). -/
namespace Clingcon.Props
open Clingcon Clingcon.Spec

/-- **C43** After options have been given and validated, the setting of each thread is the one given for this thread, or otherwise the
one given for all threads, or otherwise the initial one. -/
theorem C43_settings {os : List ((Target × Option Nat) × Int)} {d : Deferred} {c c' : Conf} (ho : giveOptions os [] = some d)
    (hv : validateOptions d c = .ok c') (g : Target) (t : Nat) :
    setting (c'.solverConfig t) g =
      match os.lookup (g, some t) with
      | some v => meant g v
      | none => match os.lookup (g, none) with
        | some v => meant g v
        | none => setting (c.solverConfig t) g := by
  obtain ⟨h1, h2⟩ := giveOptions_spec os [] List.Pairwise.nil
  have hn : (os.map (·.1)).Nodup := (h1.mp (by rw [ho]; rfl)).1
  obtain ⟨-, hm⟩ := h2 d ho
  replace hm : ∀ e, e ∈ d ↔ e ∈ os := by simpa using hm
  unfold validateOptions at hv
  dsimp only at hv
  split_ifs at hv
  injection hv with hv
  subst hv
  unfold applyDeferred
  rw [fold_filter (fun (c : Conf) (e : (Target × Option Nat) × Int) => c.setValue e.1.1 e.2 e.1.2) (fun e => true == e.1.2.isSome),
    fold_filter (fun (c : Conf) (e : (Target × Option Nat) × Int) => c.setValue e.1.1 e.2 e.1.2) (fun e => false == e.1.2.isSome),
    ← List.foldl_append, Conf.setting_fold, lastFor_append]
  have e1 : lastFor g t (d.filter (fun e => true == e.1.2.isSome)) = os.lookup (g, some t) := by
    apply lastFor_unique (k := (g, some t))
    · intro e he
      have := (List.mem_filter.mp he).2
      obtain ⟨⟨a, b⟩, v⟩ := e
      cases b <;> simp_all
    · intro v
      rw [lookup_iff hn, List.mem_filter, hm]
      simp
  have e2 : lastFor g t (d.filter (fun e => false == e.1.2.isSome)) = os.lookup (g, none) := by
    apply lastFor_unique (k := (g, none))
    · intro e he
      have := (List.mem_filter.mp he).2
      obtain ⟨⟨a, b⟩, v⟩ := e
      cases b <;> simp_all
    · intro v
      rw [lookup_iff hn, List.mem_filter, hm]
      simp
  rw [e1, e2]
  cases os.lookup (g, some t) <;> cases os.lookup (g, none) <;> rfl

/-- **C43** Options are rejected exactly if one of them is repeated. -/
theorem C43_repeated (os : List ((Target × Option Nat) × Int)) : giveOptions os [] = none ↔ ¬ (os.map (·.1)).Nodup := by
  have := (giveOptions_spec os [] List.Pairwise.nil).1
  rw [← Option.not_isSome_iff_eq_none, this]
  simp

/-- **C43** The order in which the options are given does not matter. -/
theorem C43_order {os os' : List ((Target × Option Nat) × Int)} (hp : os.Perm os') {d : Deferred} {c c' : Conf} (ho : giveOptions os [] = some d)
    (hv : validateOptions d c = .ok c') : ∃ d', giveOptions os' [] = some d' ∧ ∀ c'', validateOptions d' c = .ok c'' →
      ∀ g t, setting (c''.solverConfig t) g = setting (c'.solverConfig t) g := by
  have hn : (os.map (·.1)).Nodup := ((giveOptions_spec os [] List.Pairwise.nil).1.mp (by rw [ho]; rfl)).1
  have hn' : (os'.map (·.1)).Nodup := (hp.map _).nodup_iff.mp hn
  cases ho' : giveOptions os' [] with
  | none => exact absurd hn' ((C43_repeated os').mp ho')
  | some d' =>
    refine ⟨d', rfl, fun c'' hv' g t => ?_⟩
    rw [C43_settings ho hv, C43_settings ho' hv']
    have hl : ∀ k, os'.lookup k = os.lookup k := by
      intro k
      apply Option.ext
      intro v
      rw [lookup_iff hn', lookup_iff hn, hp.mem_iff]
    rw [hl, hl]

/-- Three options, one overriding another one, in an order in which the thread specific one comes first. -/
example : ∃ d c', giveOptions [((.signValue, some 1), 5), ((.signValue, none), 7), ((.splitAll, none), 1)] [] = some d ∧
    validateOptions d {} = .ok c' ∧ setting (c'.solverConfig 0) .signValue = 7 ∧ setting (c'.solverConfig 1) .signValue = 5 ∧
    setting (c'.solverConfig 1) .splitAll = 1 ∧ giveOptions [((.signValue, some 1), 5), ((.signValue, some 1), 7)] [] = none := by
  refine ⟨_, _, rfl, rfl, ?_⟩
  decide

/-- Uses of the configuration: changes, and requests of the configuration of a thread (propagator.cc:435, propagator.hh:165). -/
inductive ConfOp where
  | configure (key : String) (value : List Char)
  | request (thread : Nat)

/-- Uses of the configuration one after the other. -/
def confOps : List ConfOp → Conf → Res Conf
  | [], c => .ok c
  | .configure k v :: os, c => do confOps os (← configure k v c)
  | .request t :: os, c => confOps os (c.touch t)

/-- The target, thread and value of a change of a thread specific setting. -/
def requested : ConfOp → Option ((Target × Option Nat) × Int)
  | .configure "order-heuristic" s => (parseHeuristic s).toOption.map (fun p => ((.heuristic, p.2), p.1))
  | .configure "sign-value" s => (parseSignValue s).toOption.map (fun p => ((.signValue, p.2), p.1))
  | .configure "refine-reasons" s => (parseBoolThread s).toOption.map (fun p => ((.refineReasons, p.2), p.1))
  | .configure "refine-introduce" s => (parseBoolThread s).toOption.map (fun p => ((.refineIntroduce, p.2), p.1))
  | .configure "propagate-chain" s => (parseBoolThread s).toOption.map (fun p => ((.propagateChain, p.2), p.1))
  | .configure "split-all" s => (parseBoolThread s).toOption.map (fun p => ((.splitAll, p.2), p.1))
  | _ => none

theorem bind_ok {α β : Type} {x : Res α} {f : α → Res β} {b : β} (h : x >>= f = .ok b) : ∃ a, x = .ok a ∧ f a = .ok b := by
  cases x with
  | error e => cases h
  | ok a => exact ⟨a, rfl, h⟩

/-- A step either leaves all settings unchanged or changes a value as requested. -/
theorem configure_step {k : String} {s : List Char} {c c' : Conf} (h : configure k s c = .ok c') :
    (requested (.configure k s) = none ∧ c'.configs = c.configs ∧ c'.default = c.default) ∨
      ∃ g th v, requested (.configure k s) = some ((g, th), v) ∧ c' = c.setValue g v th := by
  unfold configure at h
  split at h
  case h_18 =>
    injection h with h
    subst h
    refine Or.inl ⟨?_, rfl, rfl⟩
    unfold requested
    split <;> first | rfl | (exfalso; simp_all)
  all_goals
    obtain ⟨p, hp, h⟩ := bind_ok h
    injection h with h
    subst h
    first
      | exact Or.inl ⟨rfl, rfl, rfl⟩
      | exact Or.inr ⟨_, _, _, by simp only [requested, hp]; rfl, rfl⟩

/-- **C44** After any sequence of changes of the configuration and of requests of the configurations of threads, the setting of a thread
is the one given last for this thread or for all threads. -/
theorem C44_last (g : Target) (t : Nat) : ∀ {os : List ConfOp} {c c' : Conf}, confOps os c = .ok c' →
    setting (c'.solverConfig t) g =
      match lastFor g t (os.filterMap requested) with
      | some v => meant g v
      | none => setting (c.solverConfig t) g := by
  have key : ∀ {os : List ConfOp} {c c' : Conf}, confOps os c = .ok c' → ∀ c0 : Conf, setting (c0.solverConfig t) g = setting (c.solverConfig t) g →
      setting (c'.solverConfig t) g = setting (((os.filterMap requested).foldl (fun c e => c.setValue e.1.1 e.2 e.1.2) c0).solverConfig t) g := by
    intro os
    induction os with
    | nil =>
      intro c c' h c0 h0
      injection h with h
      subst h
      exact h0.symm
    | cons o os ih =>
      intro c c' h c0 h0
      cases o with
      | request n =>
        refine ih (c := c.touch n) h c0 ?_
        rw [h0, Conf.solverConfig_eq, Conf.solverConfig_eq]
        simp only [Conf.touch]
        rw [Conf.grow_get]
      | configure k s =>
        obtain ⟨c1, h1, h2⟩ := bind_ok h
        rcases configure_step h1 with ⟨e1, e2, e3⟩ | ⟨g', th, v, e1, e2⟩
        · rw [List.filterMap_cons, e1]
          refine ih h2 c0 ?_
          rw [h0, Conf.solverConfig_eq, Conf.solverConfig_eq, e2, e3]
        · rw [List.filterMap_cons, e1]
          refine ih h2 (c0.setValue g' v th) ?_
          rw [e2, Conf.setting_setValue, Conf.setting_setValue, h0]
  intro os c c' h
  rw [key h c rfl, Conf.setting_fold]
  cases lastFor g t (os.filterMap requested) <;> rfl

/-- A thread is configured before and after a change for all threads. -/
example : ∃ c', confOps [.configure "sign-value" "5,1".toList, .request 3, .configure "sign-value" "-7".toList, .configure "split-all" "yes".toList,
    .configure "sign-value" "+,2".toList] {} = .ok c' ∧
    setting (c'.solverConfig 1) .signValue = -7 ∧ setting (c'.solverConfig 2) .signValue = 2147483647 ∧ setting (c'.solverConfig 3) .splitAll = 1 := by
  refine ⟨_, rfl, ?_⟩
  decide

/-- **C45** A number of type `val_t` that is not followed by a comma is accepted exactly if it is one of the keywords or denotes an
integer in the given range. -/
theorem C45_exact_partial {s : List Char} {lo hi v : Int} (hl : -2147483648 ≤ lo) (hh : hi ≤ 2147483647) :
    parseNum .int32 s lo hi = .ok v ↔
      (s = "min".toList ∧ v = lo) ∨ (s = "max".toList ∧ v = hi) ∨ (Decimal s v ∧ lo ≤ v ∧ v ≤ hi) := by
  rw [parseNum_iff, strtonum_int]
  constructor
  · rintro (h | h | ⟨⟨h1, h2⟩, h3⟩)
    · exact Or.inl h
    · exact Or.inr (Or.inl h)
    · exact Or.inr (Or.inr ⟨h1, h3⟩)
  · rintro (h | h | ⟨h1, h2, h3⟩)
    · exact Or.inl h
    · exact Or.inr (Or.inl h)
    · exact Or.inr (Or.inr ⟨⟨h1, by omega, by omega⟩, h2, h3⟩)

/-- **C45** Validation fails exactly if the least value is above the greatest value, and it does not change them. -/
theorem C45_bounds (d : Deferred) (c : Conf) :
    (c.maxInt < c.minInt → validateOptions d c = .error .runtime) ∧
    (c.minInt ≤ c.maxInt → ∃ c', validateOptions d c = .ok c' ∧ c'.minInt = c.minInt ∧ c'.maxInt = c.maxInt) := by
  have h1 := applyDeferred_ints false d c
  have h2 := applyDeferred_ints true d (applyDeferred false d c)
  unfold validateOptions
  dsimp only
  rw [h2.1, h2.2, h1.1, h1.2]
  constructor
  · intro h; rw [if_pos h]
  · intro h
    rw [if_neg (by omega)]
    exact ⟨_, rfl, by rw [h2.1, h1.1], by rw [h2.2, h1.2]⟩

/-- **C45** The bounds of variables that can be configured are in the range of values (base.hh:56-61). -/
theorem C45_range {s : List Char} {c c' : Conf} (h : configure "min-int" s c = .ok c' ∨ configure "max-int" s c = .ok c')
    (h1 : -1073741823 ≤ c.minInt ∧ c.minInt ≤ 1073741823) (h2 : -1073741823 ≤ c.maxInt ∧ c.maxInt ≤ 1073741823) :
    (-1073741823 ≤ c'.minInt ∧ c'.minInt ≤ 1073741823) ∧ (-1073741823 ≤ c'.maxInt ∧ c'.maxInt ≤ 1073741823) := by
  rcases h with h | h
  all_goals
    obtain ⟨v, h3, h4⟩ := bind_ok (show _ >>= _ = _ from h)
    injection h4 with h4
    subst h4
    have hv : -1073741823 ≤ v ∧ v ≤ 1073741823 := by
      rcases (C45_exact_partial (by decide) (by decide)).mp h3 with ⟨-, rfl⟩ | ⟨-, rfl⟩ | ⟨-, hv⟩
      · decide
      · decide
      · exact hv
  · exact ⟨hv, h2⟩
  · exact ⟨h1, hv⟩

/-- The hypotheses of `C45_exact_partial` and `C45_range` are met. -/
example : parseNum .int32 "-17".toList (-20) 20 = .ok (-17) ∧ parseNum .int32 "max".toList (-20) 20 = .ok 20 ∧
    parseNum .int32 "21".toList (-20) 20 = .error .logic ∧ parseNum .int32 "1x".toList (-20) 20 = .error .runtime ∧
    (∃ c', configure "min-int" "-5".toList {} = .ok c' ∧ c'.minInt = -5) := by
  refine ⟨rfl, rfl, rfl, rfl, _, rfl, rfl⟩

/-- **C45** Numbers of the unsigned type are accepted exactly if they are keywords or denote an integer whose absolute value fits the
type and whose remainder is in the given range. -/
theorem C45_unsigned {s : List Char} {lo hi v : Int} : parseNum .uint32 s lo hi = .ok v ↔
    (s = "min".toList ∧ v = lo) ∨ (s = "max".toList ∧ v = hi) ∨
      ∃ u, Decimal s u ∧ -4294967295 ≤ u ∧ u ≤ 4294967295 ∧ v = u % 4294967296 ∧ lo ≤ v ∧ v ≤ hi := by
  rw [parseNum_iff, strtonum_uint]
  constructor
  · rintro (h | h | ⟨⟨u, h1, h2, h3, h4⟩, h5⟩)
    · exact Or.inl h
    · exact Or.inr (Or.inl h)
    · exact Or.inr (Or.inr ⟨u, h1, h2, h3, h4, h5⟩)
  · rintro (h | h | ⟨u, h1, h2, h3, h4, h5⟩)
    · exact Or.inl h
    · exact Or.inr (Or.inl h)
    · exact Or.inr (Or.inr ⟨⟨u, h1, h2, h3, h4⟩, h5⟩)

/-- **C45** Truth values are accepted exactly if they are prefixes of keywords; the empty string is accepted, too. -/
theorem C45_bool {s : List Char} {b : Bool} : parseBool s = .ok b ↔
    if s <+: "true".toList ∨ s <+: "yes".toList ∨ s <+: "1".toList then b = true
    else b = false ∧ (s <+: "false".toList ∨ s <+: "no".toList ∨ s <+: "0".toList) := by
  unfold parseBool
  simp only [Bool.or_eq_true, isPrefix_iff]
  split_ifs with h1 h2
  · simp [eq_comm]
  · simp only [Except.ok.injEq, h2, and_true]; exact eq_comm
  · constructor
    · intro h; cases h
    · rintro ⟨-, h⟩; exact absurd h h2

/-- **C45** fails for values before a comma and for numbers of the unsigned type: keywords are recognised by prefixes, even the empty
one, and negative numbers are read as large numbers. -/
theorem C45_negation :
    (∃ s v, parseSignValue s = .ok (v, none) ∧ s ≠ "min".toList ∧ s ≠ "max".toList ∧ s ≠ "+".toList ∧ s ≠ "-".toList ∧ ¬ Decimal s v) ∧
    (∃ s v, parseNum .uint32 s 0 63 = .ok v ∧ s ≠ "min".toList ∧ s ≠ "max".toList ∧ ¬ Decimal s v) ∧
    (∃ s n m, parseTranslateClause s = .ok (n, some m) ∧ s = "5,-1".toList ∧ m = 18446744073709551615) ∧
    (∃ b, parseBool [] = .ok b) := by
  refine ⟨⟨[], _, rfl, by decide, by decide, by decide, by decide, ?_⟩, ⟨"-4294967290".toList, _, rfl, by decide, by decide, ?_⟩,
    ⟨_, _, _, rfl, rfl, rfl⟩, _, rfl⟩
  · rw [signed_iff]
    rintro ⟨neg, n, h, -⟩
    cases h
  · rw [signed_iff]
    rintro ⟨neg, n, h, h'⟩
    have e : signedDigits "-4294967290".toList = some (true, 4294967290) := by decide
    rw [e] at h
    cases h
    revert h'
    decide

/-- **C51** fails: a theory with a decision heuristic does not take part in decisions if a theory without one was registered before. -/
theorem C51_negation : ∃ c1 c2 : Conf, c2.hasHeuristic = true ∧ (register c2 (register c1 none).2).1 = false ∧ (register c2 none).1 = true :=
  ⟨{}, { default := { heuristic := .maxChain } }, by decide, by decide, by decide⟩

/-- Theories registered one after the other in a process. -/
def registerAll : List Conf → Registry → List Bool
  | [], _ => []
  | c :: cs, r => (register c r).1 :: registerAll cs (register c r).2

theorem registerAll_some (b : Bool) : ∀ cs : List Conf, registerAll cs (some b) = cs.map (fun _ => b)
  | [] => rfl
  | c :: cs => congrArg (b :: ·) (registerAll_some b cs)

/-- **C51** Whether theories take part in decisions depends only on the first theory that was registered; it depends on the theory itself
if all theories agree on having a heuristic. -/
theorem C51_partial (c : Conf) (cs : List Conf) :
    registerAll (c :: cs) none = (c :: cs).map (fun _ => c.hasHeuristic) ∧
    ((∀ c' ∈ cs, c'.hasHeuristic = c.hasHeuristic) → registerAll (c :: cs) none = (c :: cs).map Conf.hasHeuristic) := by
  have h : registerAll (c :: cs) none = (c :: cs).map (fun _ => c.hasHeuristic) := by
    rw [registerAll]
    exact congrArg _ (registerAll_some c.hasHeuristic cs)
  refine ⟨h, fun ha => ?_⟩
  rw [h]
  apply List.map_congr_left
  intro c' hc
  rcases List.mem_cons.mp hc with rfl | hc
  · rfl
  · exact (ha c' hc).symm

/-- Two theories that agree. -/
example : registerAll [{ default := { heuristic := .maxChain } }, { configs := [{ heuristic := .maxChain }] }] none = [true, true] := by decide

end Clingcon.Props
