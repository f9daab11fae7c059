import Verif.Spec.Optimize
import Verif.Spec.FedRuns
import Verif.Props.Propagator
import Verif.Props.FedSound

/-! Solving with several threads and a shared bound of the objective: proofs. -/
set_option linter.unusedVariables false
namespace Clingcon
open Spec Props

variable {cc : CC} {β : Nat → Bool} {σ : Nat → Int} {W W' W1 W2 : World} {n : Int} {k : Nat} {m : MinCon} {ts ts1 ts2 : List Told} {b : Int} {ck cs : Bool} {fuel : Nat}
  {total : List SEv → Bool} {r : Bool} {op : Op} {ops ops1 ops2 : List Op} {S S0 : OState} {E : Nat → CC → World → List Told → Prop}

theorem Fed.trans (h : Fed ops1 W ts W1 ts1) : Fed ops2 W1 ts1 W2 ts2 → Fed (ops1 ++ ops2) W ts W2 ts2 := by
  induction h with
  | nil => exact id
  | cons hp hf hx _ ih => exact fun h => .cons hp hf hx (ih h)

theorem Fed.one (hp : op.pre W) (hf : feedPre ts W op) (hx : op.exec W = .ok (r, W')) : Fed [op] W ts W' (toldAfter op W W' r ts) :=
  .cons hp hf hx (.nil _ _)

theorem AdmFed.trans (h : AdmFed β σ ops1 W ts W1 ts1) : AdmFed β σ ops2 W1 ts1 W2 ts2 → AdmFed β σ (ops1 ++ ops2) W ts W2 ts2 := by
  induction h with
  | nil => exact id
  | cons hp hf he ha hx _ ih => exact fun h => .cons hp hf he ha hx (ih h)

theorem AdmFed.fed (h : AdmFed β σ ops W ts W1 ts1) : Fed ops W ts W1 ts1 := by
  induction h with
  | nil => exact .nil _ _
  | cons hp hf _ _ hx _ ih => exact .cons hp hf hx ih

theorem told_other (h1 : ∀ cc ls, op ≠ .propagate cc ls) (h2 : op ≠ .undo) : toldAfter op W W' r ts = ts := by
  cases ts with
  | nil => rfl
  | cons t ts =>
    cases op <;> first | rfl | exact absurd rfl (h1 _ _) | exact absurd rfl h2

/-- The steps of a check. -/
structure CheckSteps (cc : CC) (k : Nat) (m : MinCon) (b : Int) (ck cs : Bool) (fuel : Nat) (W W0 W1 W' : World) (r : Bool) : Prop where
  bound : b = NO_BOUND ∧ W0 = W ∨ b ≠ NO_BOUND ∧ W0 = { W with book := W.book.updateMinimize k cc.level (b + m.adjust) }
  check : solverCheck cc ck fuel W0 = .ok (r, W1)
  full : W' = W1 ∨ solverCheckFull cc cs W1 = .ok ((), W')

theorem boundAndCheck_steps (h : boundAndCheck cc (some (k, m)) b ck fuel W = .ok (r, W1)) : ∃ W0, CheckSteps cc k m b ck cs fuel W W0 W1 W1 r := by
  unfold boundAndCheck handBound at h
  rw [bind_iff] at h
  obtain ⟨_, W0, h1, h2⟩ := h
  refine ⟨W0, ?_, h2, Or.inl rfl⟩
  rcases whenS_iff.mp h1 with ⟨hb, h1⟩ | ⟨hb, rfl⟩
  · rw [modify_iff] at h1
    exact Or.inr ⟨by simpa using hb, h1⟩
  · exact Or.inl ⟨by simpa using hb, rfl⟩

theorem propCheck_steps (h : propCheck cc total (some (k, m)) b ck cs fuel W = .ok ((), W')) : ∃ W0 W1 r, CheckSteps cc k m b ck cs fuel W W0 W1 W' r := by
  unfold propCheck at h
  rw [bind_iff] at h
  obtain ⟨X, Y, h0, h⟩ := h
  obtain ⟨rfl, rfl⟩ := get_iff.mp h0
  rw [bind_iff] at h
  obtain ⟨r, W1, h1, h⟩ := h
  obtain ⟨W0, hs⟩ := boundAndCheck_steps (cs := cs) h1
  refine ⟨W0, W1, r, hs.bound, hs.check, ?_⟩
  cases r with
  | false =>
    obtain ⟨-, rfl⟩ := pure_iff.mp h
    exact Or.inl rfl
  | true =>
    simp only [Bool.not_true, Bool.false_eq_true, if_false] at h
    rw [bind_iff] at h
    obtain ⟨Z, Z', h2, h⟩ := h
    obtain ⟨rfl, rfl⟩ := get_iff.mp h2
    rcases whenS_iff.mp h with ⟨-, h⟩ | ⟨-, rfl⟩
    · exact Or.inr h
    · exact Or.inl rfl

/-- The final check of a total assignment. -/
theorem propCheck_full (h1 : boundAndCheck cc (some (k, m)) b ck fuel W = .ok (true, W1)) (ht : total W1.log = true) (hn : W1.nextLit = W.nextLit)
    (h : propCheck cc total (some (k, m)) b ck cs fuel W = .ok ((), W')) : solverCheckFull cc cs W1 = .ok ((), W') := by
  unfold propCheck at h
  rw [bind_iff] at h
  obtain ⟨X, Y, h0, h⟩ := h
  obtain ⟨rfl, rfl⟩ := get_iff.mp h0
  rw [bind_iff] at h
  obtain ⟨r, W2, h2, h⟩ := h
  rw [h1] at h2
  injection h2 with h2
  obtain ⟨rfl, rfl⟩ := Prod.mk.inj h2
  simp only [Bool.not_true, Bool.false_eq_true, if_false] at h
  rw [bind_iff] at h
  obtain ⟨Z, Z', h3, h⟩ := h
  obtain ⟨rfl, rfl⟩ := get_iff.mp h3
  rcases whenS_iff.mp h with ⟨-, h⟩ | ⟨hc, -⟩
  · exact h
  · simp [hn, ht] at hc

theorem updateMinimize_levels {bk : Book} {l : Nat} {x : Int} : (bk.updateMinimize k l x).levels = bk.levels := by
  have key : ∀ b' : Book, (b'.markTodo k).levels = b'.levels := by
    intro b'
    have := markTodo_eff b' k
    rw [this.rest]
  unfold Book.updateMinimize
  split_ifs
  · rw [key]
  · rw [key]
  · rfl

theorem updateMinimize_aview {bk : Book} {l : Nat} {x : Int} : aview (bk.updateMinimize k l x) = aview bk := by
  unfold Book.updateMinimize
  split_ifs
  · rw [markTodo_aview]; rfl
  · rw [markTodo_aview]; rfl
  · rfl

/-- The bound that a solver has after it got a bound is at least as strict. -/
theorem updateMinimize_bound {bk : Book} {l : Nat} {x : Int} : ∃ y, (bk.updateMinimize k l x).minimizeBound = some y ∧ y ≤ x := by
  have key : ∀ b' : Book, (b'.markTodo k).minimizeBound = b'.minimizeBound := fun b' => congrArg Prod.snd (markTodo_kons (b := b') (n := k))
  unfold Book.updateMinimize
  cases hb : bk.minimizeBound with
  | none =>
    simp only [if_true]
    exact ⟨x, key _, le_refl _⟩
  | some mb =>
    simp only [decide_eq_true_eq]
    split_ifs with h1 h2
    · exact ⟨x, key _, le_refl _⟩
    · exact ⟨mb, key _, by omega⟩
    · exact ⟨mb, hb, by omega⟩

theorem level_congr (h : W'.book.levels = W.book.levels) : W'.level = W.level := by
  unfold World.level; rw [h]

theorem check_levels (hg : GI W ts) (h : solverCheck cc ck fuel W = .ok (r, W')) : W'.book.levels = W.book.levels :=
  (solverCheck_eff h (L := W.book.levels) (A := (alF (frame W), auF (frame W), (frame W).1.length)) ⟨hg.wi.bi, rfl, fun _ _ _ _ _ => ⟨rfl, rfl⟩, rfl⟩).1.lev

/-- A check is a sequence of calls. -/
theorem CheckSteps.fed {W0 : World} (h : CheckSteps cc k m b ck cs fuel W W0 W1 W' r) (hg : GI W ts) (hl : W.level ≤ cc.level) :
    ∃ ops0 ops1 ops2, Fed ops0 W ts W0 ts ∧ Fed ops1 W0 ts W1 ts ∧ Fed ops2 W1 ts W' ts := by
  have h0 : ∃ ops0, Fed ops0 W ts W0 ts ∧ W0.level = W.level := by
    rcases h.bound with ⟨-, rfl⟩ | ⟨-, rfl⟩
    · exact ⟨[], .nil _ _, rfl⟩
    · refine ⟨[.updateMinimize k cc.level (b + m.adjust)], ?_, level_congr updateMinimize_levels⟩
      have := Fed.one (op := .updateMinimize k cc.level (b + m.adjust)) (W := W) (ts := ts) (r := true) trivial trivial rfl
      rwa [told_other (fun _ _ => by simp) (by simp)] at this
  obtain ⟨ops0, f0, e0⟩ := h0
  have g0 := gi_fed f0 hg
  have f1 : Fed [.check cc ck fuel] W0 ts W1 ts := by
    have := Fed.one (op := .check cc ck fuel) (W := W0) (ts := ts) trivial (show _ ≤ _ by omega) h.check
    rwa [told_other (fun _ _ => by simp) (by simp)] at this
  have g1 := gi_fed f1 g0
  refine ⟨ops0, [.check cc ck fuel], ?_⟩
  rcases h.full with rfl | h2
  · exact ⟨[], f0, f1, .nil _ _⟩
  · refine ⟨[.checkFull cc cs], f0, f1, ?_⟩
    have hx : (Op.checkFull cc cs).exec W1 = .ok (true, W') := by
      show (do solverCheckFull cc cs; return true : SM Bool) W1 = _
      rw [bind_iff]
      exact ⟨(), W', h2, rfl⟩
    have := Fed.one (op := .checkFull cc cs) (W := W1) (ts := ts) trivial (show _ ≤ _ by rw [level_congr (check_levels g0 h.check)]; omega) hx
    rwa [told_other (fun _ _ => by simp) (by simp)] at this

theorem CheckSteps.sameA {K : List (Bool × Constr)} {W0 : World} (h : CheckSteps cc k m b ck cs fuel W W0 W1 W' r) (hk : SameA K (frame W)) : SameA K (frame W1) ∧ SameA K (frame W') := by
  have h0 : SameA K (frame W0) := by
    rcases h.bound with ⟨-, rfl⟩ | ⟨-, rfl⟩
    · exact hk
    · exact hk.of updateMinimize_aview
  have h1 := a_solverCheck.keep _ _ _ h.check h0
  refine ⟨h1, ?_⟩
  rcases h.full with rfl | h2
  · exact h1
  · exact keepA_solverCheckFull.keep _ _ _ h2 h1

theorem searching_sameA {K : List (Bool × Constr)} (ho : searching op) (h : op.exec W = .ok (r, W')) (hk : SameA K (frame W)) : SameA K (frame W') := by
  cases op with
  | propagate cc ls => exact a_solverPropagate.keep _ _ _ h hk
  | undo => exact (Keep.bind a_solverUndo (fun _ => Keep.fr Fr.pure)).keep _ _ _ h hk
  | decide cc l => exact (Keep.bind (Keep.discard (Keep.fr fr_solverDecide)) (fun _ => Keep.fr Fr.pure)).keep _ _ _ h hk
  | _ => exact ho.elim

theorem sumValues_eq : ∀ {es : List (Int × Nat)} {x y : Int}, sumValues W es x = some y → y = es.foldl (fun b e => b + e.1 * values W e.2) x
  | [], x, y, h => by injection h with h; exact h.symm
  | (co, v) :: es, x, y, h => by
    unfold sumValues at h
    cases hv : W.getValue v with
    | none => rw [hv] at h; cases h
    | some z =>
      rw [hv] at h
      have := sumValues_eq (es := es) h
      rw [this, List.foldl_cons]
      simp [values, hv]

theorem minimizeValue_eq {c : Int} (h : W.minimizeValue m = some c) : c = m.cost (values W) := by
  unfold World.minimizeValue at h
  rw [Option.map_eq_some_iff] at h
  obtain ⟨x, h1, rfl⟩ := h
  unfold MinCon.cost
  rw [sumValues_eq h1]

theorem values_lower : values W = lowerOf W := by
  funext v
  unfold values World.getValue lowerOf boundsOf
  rw [List.getElem?_map]
  cases W.vars[v]? <;> rfl

theorem inRange_of (h : ranged W) : InRange W := by
  intro v
  unfold lowerOf upperOf boundsOf
  rw [List.getElem?_map]
  cases hv : W.vars[v]? with
  | none => exact ⟨by decide, by decide⟩
  | some vs => exact h v vs hv

/-- The bound handed to a solver is respected by the values of an accepted total assignment. -/
theorem accepted_bound (hn : 1 < n) {ops : List Op} (hf : Fed ops (World.init n) [Told.none] W ts) (hl : W.level ≤ cc.level)
    (hfm : cc.level = W.level ∨ W.factmap = []) (hc : ∃ c, W.book.cs[k]? = some c ∧ c.alive = true ∧ c.con = .minimize m.adjust m.elems) (hi : IA W.book)
    (h1 : boundAndCheck cc (some (k, m)) b ck fuel W = .ok (true, W1)) (ht : total W1.log = true)
    (h : propCheck cc total (some (k, m)) b ck true fuel W = .ok ((), W')) (hnl : W1.nextLit = W.nextLit) (hlog : W'.log = W1.log)
    (htt : litTrue β 1) (hag : ∀ c ∈ W1.book.cs, litTrue β c.con.lit → cc.isTrue W1.log c.con.lit = true) (hp : PassedAll β W1 ts) (hr : ranged W1) :
    W' = W1 ∧ AllFixed W1 ∧ (b ≠ NO_BOUND → m.cost (values W') ≤ b) ∧
      ∀ c ∈ W.book.cs, c.alive = true → litTrue β c.con.lit → conHolds (values W') W'.book.minimizeBound c.con := by
  have hfull := propCheck_full h1 ht hnl h
  obtain ⟨W0, hs⟩ := boundAndCheck_steps (cs := true) h1
  obtain ⟨ops0, ops1, ops2, f0, f1, -⟩ := hs.fed (gi_fed hf (gi_init hn)) hl
  have hf0 := Fed.trans hf f0
  have hf1 := Fed.trans hf0 f1
  have e0 : W0.level = W.level := by
    rcases hs.bound with ⟨-, rfl⟩ | ⟨-, rfl⟩
    · rfl
    · exact level_congr updateMinimize_levels
  have efm : W0.factmap = W.factmap := by rcases hs.bound with ⟨-, rfl⟩ | ⟨-, rfl⟩ <;> rfl
  have hfm1 : W1.factmap = [] := by
    by_cases hc : cc.level = W0.level ∨ W0.level < W0.book.minimizeLevel
    · exact C50_integrated hc hs.check
    · have hx := hs.check
      unfold solverCheck at hx
      rw [bind_iff] at hx
      obtain ⟨l, X, g1, hx⟩ := hx
      obtain ⟨e, rfl⟩ := curLevel_level g1
      rw [bind_iff] at hx
      obtain ⟨Y, Z, g2, hx⟩ := hx
      obtain ⟨rfl, rfl⟩ := get_iff.mp g2
      rw [e, if_pos (by omega)] at hx
      obtain ⟨-, rfl⟩ := pure_iff.mp hx
      rw [efm]
      rcases hfm with hq | hq
      · exact absurd (Or.inl (by omega)) hc
      · exact hq
  obtain ⟨t, ts', rfl, hpass⟩ := hp
  obtain ⟨a1, -, a3⟩ := C24_accepted_run hn hf1 hfm1 hpass (inRange_of hr) hfull hlog
  obtain ⟨rfl, -⟩ := C24_check_full a1 hfull
  have sA := (hs.sameA hi.sameA).1
  have look : ∀ {i : Nat} {c : CState}, W.book.cs[i]? = some c → c.alive = true → litTrue β c.con.lit → conHolds (lowerOf W') W'.book.minimizeBound c.con := by
    intro i c hc ha hl
    have : (W'.book.cs.map acon)[i]? = (W.book.cs.map acon)[i]? := by rw [show W'.book.cs.map acon = W.book.cs.map acon from sA.1]
    rw [List.getElem?_map, List.getElem?_map, hc, Option.map_some, Option.map_eq_some_iff] at this
    obtain ⟨c', d1, d2⟩ := this
    obtain ⟨d3, d4⟩ := Prod.mk.inj d2
    have := a3 i c' d1 (by rw [d3, ha]) (hag c' (List.mem_of_getElem? d1) (by rw [d4]; exact hl))
    rwa [d4] at this
  refine ⟨rfl, a1, fun hb => ?_, fun c hc ha hl => ?_⟩
  · obtain ⟨c, c1, c2, c3⟩ := hc
    have hold := look c1 c2 (by rw [c3]; exact htt)
    rw [c3] at hold
    obtain ⟨y, y1, y2⟩ : ∃ y, W'.book.minimizeBound = some y ∧ y ≤ b + m.adjust := by
      have hk : konsB W'.book = konsB W0.book := (keepK_solverCheck (K := konsB W0.book)).keep _ _ _ hs.check rfl
      have hk := congrArg Prod.snd hk
      rcases hs.bound with ⟨hq, -⟩ | ⟨-, rfl⟩
      · exact absurd hq hb
      · obtain ⟨y, g1, g2⟩ := updateMinimize_bound (bk := W.book) (k := k) (l := cc.level) (x := b + m.adjust)
        exact ⟨y, hk.trans g1, g2⟩
    have := hold y y1
    rw [cost_eq, values_lower]
    omega
  · obtain ⟨i, hi⟩ := List.getElem?_of_mem hc
    rw [values_lower]
    exact look hi ha hl

/-- The Boolean solver still agrees with the assignment. -/
theorem FedAgrees.later (h : FedAgrees cc β W ts) (hl : ∃ new, W'.log = new ++ W.log) (hc : (konsB W'.book).1 = (konsB W.book).1) : FedAgrees cc β W' ts := by
  refine ⟨h.sound, h.mono, fun c hm l hq log => ?_, fun t ht l hq => ?_⟩
  · have : c.con ∈ (konsB W.book).1 := by rw [← hc]; exact List.mem_map_of_mem hm
    obtain ⟨c0, h1, h2⟩ := List.mem_map.mp this
    exact h.fixed c0 h1 l (by rw [h2]; exact hq) log
  · obtain ⟨new, e⟩ := hl
    have h0 := h.told t ht l hq
    rw [e]
    clear e
    induction new with
    | nil => exact h0
    | cons x new ih =>
      unfold CC.isTrue CC.value at ih ⊢
      have := h.mono x (new ++ W.log) l.natAbs
      rw [List.cons_append]
      cases ha : cc.atom (new ++ W.log) l.natAbs with
      | none => rw [ha] at ih; simp at ih
      | some b => rw [this b ha]; rw [ha] at ih; exact ih

/-- A check does not exclude assignments that respect the bound. -/
theorem CheckSteps.adm {W0 : World} (h : CheckSteps cc k m b ck cs fuel W W0 W1 W' r) (hg : GI W ts) (hl : W.level ≤ cc.level) (ha : FedAgrees cc β W ts)
    (ho : ∀ c ∈ W.book.cs, ∀ a es, c.con = .minimize a es → a = m.adjust ∧ es = m.elems) (hb : b ≠ NO_BOUND → m.cost σ ≤ b) :
    ∃ ops, AdmFed β σ ops W ts W' ts := by
  have h0 : ∃ ops0, AdmFed β σ ops0 W ts W0 ts ∧ W0.level = W.level ∧ FedAgrees cc β W0 ts := by
    rcases h.bound with ⟨-, rfl⟩ | ⟨hne, rfl⟩
    · exact ⟨[], .nil _ _, rfl, ha⟩
    · refine ⟨[.updateMinimize k cc.level (b + m.adjust)], ?_, level_congr updateMinimize_levels, FedAgrees.later ha ⟨[], rfl⟩ ?_⟩
      · have hadm : admitted β σ W (.updateMinimize k cc.level (b + m.adjust)) := by
          intro c hc a es e x hx
          obtain ⟨-, rfl⟩ := ho c hc a es e
          injection hx with hx
          have := hb hne
          rw [cost_eq] at this
          omega
        have := AdmFed.cons (op := .updateMinimize k cc.level (b + m.adjust)) (W := W) (ts := ts) (r := true) (β := β) (σ := σ) trivial trivial (fun cc h => by cases h) hadm rfl (.nil _ _)
        rwa [told_other (fun _ _ => by simp) (by simp)] at this
      · rcases updateMinimize_kons (b := W.book) (n := k) (l := cc.level) (x := b + m.adjust) with hk | hk
        · exact congrArg Prod.fst hk
        · exact (congrArg Prod.fst hk).trans rfl
  obtain ⟨ops0, f0, e0, a0⟩ := h0
  have g0 := gi_fed (AdmFed.fed f0) hg
  have f1 : AdmFed β σ [.check cc ck fuel] W0 ts W1 ts := by
    have := AdmFed.cons (op := .check cc ck fuel) (W := W0) (ts := ts) (β := β) (σ := σ) trivial (show _ ≤ _ by omega) (fun cc' h => by cases h; exact a0) trivial h.check (.nil _ _)
    rwa [told_other (fun _ _ => by simp) (by simp)] at this
  have g1 := gi_fed (AdmFed.fed f1) g0
  rcases h.full with rfl | h2
  · exact ⟨_, AdmFed.trans f0 f1⟩
  · have hx : (Op.checkFull cc cs).exec W1 = .ok (true, W') := by
      show (do solverCheckFull cc cs; return true : SM Bool) W1 = _
      rw [bind_iff]
      exact ⟨(), W', h2, rfl⟩
    have a1 : FedAgrees cc β W1 ts := FedAgrees.later a0 (exec_log (op := .check cc ck fuel) h.check)
      (congrArg Prod.fst ((keepK_solverCheck (K := konsB W0.book)).keep _ _ _ h.check rfl))
    have := AdmFed.cons (op := .checkFull cc cs) (W := W1) (ts := ts) (β := β) (σ := σ) trivial (show _ ≤ _ by rw [level_congr (check_levels g0 h.check)]; omega)
      (fun cc' h => by cases h; exact a1) trivial hx (.nil _ _)
    rw [told_other (fun _ _ => by simp) (by simp)] at this
    exact ⟨_, AdmFed.trans (AdmFed.trans f0 f1) this⟩

end Clingcon
