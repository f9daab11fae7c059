import Verif.Proof.CoverUndo
import Verif.Props.Levels

/-! C63: no violated linear constraint is missed. -/
set_option linter.unusedVariables false
namespace Clingcon.Props
open Clingcon Spec

variable {W W' : World} {G : Ghost} {k : Int} {f : Bool} {g0 : Int → Prop} {ops : List Op} {n : Nat} {c : CState}

theorem settled_low (hs : Search ops (World.init k) ⟨true, f, [g0]⟩ W G) (h1 : ¬ g0 1) (hok : G.ok = true) (hset : W.settled) (hc : W.book.cs[n]? = some c) (ha : c.alive = true) :
    ∃ g ∈ G.known.head?, lowC G.fresh W.book.minimizeBound (loF (frame W)) (upF (frame W)) c.con ∨ asideC g (loF (frame W)) (upF (frame W)) c.con := by
  have hi := ci_run hs (ci_init h1)
  obtain ⟨g, hg⟩ : ∃ g, G.known.head? = some g := by
    have := hi.snaps
    cases hk : G.known with
    | nil =>
      rw [hk] at this
      cases hl : W.book.levels with
      | nil => rw [hl] at this; exact this.elim
      | cons l ls =>
        rw [hl] at this
        cases ls with
        | nil => exact this.elim
        | cons => exact this.elim
    | cons g gs => exact ⟨g, rfl⟩
  refine ⟨g, hg, ?_⟩
  obtain ⟨hq, ho⟩ := hi.cov hok g hg
  by_cases hm : n ∈ W.book.inactive
  · exact Or.inr (ho n c hc ha trivial hm)
  · left
    have hz : c.inactive = 0 := by
      by_contra hne
      exact hm (hi.marks.2 n c hc (by omega))
    have hcn := hi.wi.bi.sums ⟨hset.1.1, hset.1.2⟩ hc ha hz
    exact (low_iff hcn).mp (hq n c hc ha (by show n ∉ W.book.todo; rw [hset.2]; simp) hm)

theorem lowerOf_fun : loF (frame W) = lowerOf W := funext fun v => lowerOf_eq.symm
theorem upperOf_fun : upF (frame W) = upperOf W := funext fun v => upperOf_eq.symm

/-- **C63** In all states reached by a sequence of calls without conflict, if there is no pending work, then the least value of each
linear constraint whose literal is not known to be false is not above the bound. (If the domain of a variable were
empty, this could also be the case for the greatest value only.) -/
theorem C63_linear {l rhs : Int} {es : List (Int × Nat)} (hs : Search ops (World.init k) ⟨true, f, [g0]⟩ W G) (h1 : ¬ g0 1) (hok : G.ok = true) (hset : W.settled)
    (hc : W.book.cs[n]? = some c) (ha : c.alive = true) (hcon : c.con = .sum l rhs es) (hl : ∀ g ∈ G.known.head?, ¬ g l) :
    leastSum (lowerOf W) (upperOf W) es ≤ rhs ∨ greatestSum (lowerOf W) (upperOf W) es ≤ rhs := by
  obtain ⟨g, hg, h | h⟩ := settled_low hs h1 hok hset hc ha
  · rw [hcon, lowerOf_fun, upperOf_fun] at h
    exact Or.inl (by rw [← lowSum_eq]; exact h)
  · rw [hcon, lowerOf_fun, upperOf_fun] at h
    rcases h with h | h
    · exact Or.inr (by rw [← upSum_eq]; exact h)
    · exact absurd h (hl g hg)

theorem sums_assigned {σ : Nat → Int} {es : List (Int × Nat)} {lo up : Nat → Int} (h : ∀ e ∈ es, lo e.2 = σ e.2 ∧ up e.2 = σ e.2) :
    leastSum lo up es = wsum σ es ∧ greatestSum lo up es = wsum σ es := by
  induction es with
  | nil => exact ⟨rfl, rfl⟩
  | cons e es ih =>
    obtain ⟨co, v⟩ := e
    obtain ⟨h1, h2⟩ := h (co, v) (List.mem_cons_self ..)
    obtain ⟨i1, i2⟩ := ih (fun e he => h e (List.mem_cons_of_mem _ he))
    dsimp only at h1 h2
    unfold leastSum greatestSum
    rw [i1, i2, h1, h2]
    unfold wsum
    constructor <;> split_ifs <;> simp

/-- **C63** If all variables of the constraint are assigned, then it is satisfied. -/
theorem C63_assigned {l rhs : Int} {es : List (Int × Nat)} {σ : Nat → Int} (hs : Search ops (World.init k) ⟨true, f, [g0]⟩ W G) (h1 : ¬ g0 1) (hok : G.ok = true)
    (hset : W.settled) (hc : W.book.cs[n]? = some c) (ha : c.alive = true) (hcon : c.con = .sum l rhs es) (hl : ∀ g ∈ G.known.head?, ¬ g l)
    (hσ : ∀ e ∈ es, lowerOf W e.2 = σ e.2 ∧ upperOf W e.2 = σ e.2) : wsum σ es ≤ rhs := by
  obtain ⟨e1, e2⟩ := sums_assigned hσ
  rcases C63_linear hs h1 hok hset hc ha hcon hl with h | h
  · rwa [e1] at h
  · rwa [e2] at h

/-- **C63** If the bound of the objective has been reported since levels have been undone, then the value of the
objective respects it. -/
theorem C63_objective {a : Int} {es : List (Int × Nat)} {b : Int} (hs : Search ops (World.init k) ⟨true, f, [g0]⟩ W G) (h1 : ¬ g0 1) (hok : G.ok = true)
    (hset : W.settled) (hc : W.book.cs[n]? = some c) (ha : c.alive = true) (hcon : c.con = .minimize a es) (hf : G.fresh = true) (hb : W.book.minimizeBound = some b) :
    leastSum (lowerOf W) (upperOf W) es ≤ b ∨ greatestSum (lowerOf W) (upperOf W) es ≤ b := by
  obtain ⟨g, hg, h | h⟩ := settled_low hs h1 hok hset hc ha
  · rw [hcon, lowerOf_fun, upperOf_fun] at h
    have := h hf b hb
    rwa [lowSum_eq, upSum_eq] at this
  · rw [hcon] at h; exact h.elim

theorem C63_objective_assigned {a : Int} {es : List (Int × Nat)} {b : Int} {σ : Nat → Int} (hs : Search ops (World.init k) ⟨true, f, [g0]⟩ W G) (h1 : ¬ g0 1) (hok : G.ok = true)
    (hset : W.settled) (hc : W.book.cs[n]? = some c) (ha : c.alive = true) (hcon : c.con = .minimize a es) (hf : G.fresh = true) (hb : W.book.minimizeBound = some b)
    (hσ : ∀ e ∈ es, lowerOf W e.2 = σ e.2 ∧ upperOf W e.2 = σ e.2) : wsum σ es ≤ b := by
  obtain ⟨e1, e2⟩ := sums_assigned hσ
  rcases C63_objective hs h1 hok hset hc ha hcon hf hb with h | h
  · rwa [e1] at h
  · rwa [e2] at h

/-- **C63** A successful check on the current decision level, or on any level below the last reported bound of the
objective, leaves no pending work. -/
theorem C63_check {cc : CC} {ck : Bool} {m : Nat} (hr : Reach W) (h : solverCheck cc ck m W = .ok (true, W')) (hl : cc.level = W.level ∨ W.level < W.book.minimizeLevel) :
    W'.settled := by
  have hi := hr.wi
  obtain ⟨-, h2⟩ := solverCheck_eff h (L := W.book.levels) (A := (alF (frame W), auF (frame W), (frame W).1.length)) ⟨hi.bi, rfl, fun _ _ _ _ _ => ⟨rfl, rfl⟩, rfl⟩
  have hlev : ∀ l ∈ W.book.levels.head?, W.level = l.level := by
    intro l hl
    unfold World.level
    cases hh : W.book.levels with
    | nil => rw [hh] at hl; cases hl
    | cons x xs => rw [hh] at hl; injection hl with hl; subst hl; rfl
  have := h2 rfl (Or.inl (fun l hl' => by
    have := hlev l hl'
    rcases hl with hl | hl
    · exact Or.inl (by omega)
    · exact Or.inr (by rw [← this]; exact hl)))
  exact ⟨⟨this.low, this.upp⟩, this.todo⟩

/-! ### An example -/

/-- Calls, where the Boolean solver passed to checks is given by the level and the assigned atoms. -/
inductive Call where
  | plain (op : Op) (h : envOf op = none)
  | check (level : Nat) (ck : Bool) (fuel : Nat)

def Call.op (a : List (Nat × Bool)) : Call → Op
  | .plain op _ => op
  | .check l ck n => .check (assigns l a) ck n

/-- The false literals. -/
def falses (a : List (Nat × Bool)) : List Int := -1 :: a.map (fun p => if p.2 then -(p.1 : Int) else p.1)

def unitsB (log : List SEv) (fs : List Int) : Bool :=
  log.all (fun e => match e with
    | .clause cl => cl.all (fun l => !(cl.all (fun x => x == l || fs.contains x)) || fs.contains (-l))
    | .volatile cl => cl.all (fun l => !(cl.all (fun x => x == l || fs.contains x)) || fs.contains (-l))
    | _ => true)

def isMin : Constr → Bool
  | .minimize .. => true
  | _ => false

def searchPreB (W : World) (fr : Bool) : Op → Bool
  | .updateMinimize n level _ => decide (W.level ≤ level) && (W.book.cs[n]?.all (fun c => isMin c.con)) &&
      (List.range W.book.cs.length).all (fun m => W.book.cs[m]?.all (fun c => !(c.alive && isMin c.con) || m == n))
  | .propagate cc _ => !decide (W.level < cc.level) || fr
  | _ => true

def learnsB (a : List (Nat × Bool)) (W W' : World) : List (List (Nat × Bool)) → Option (List (List (Nat × Bool)))
  | [] => none
  | g :: gs =>
    if W'.book.levels.length = W.book.levels.length then
      if (falses g).all (fun l => (falses a).contains l) && !(falses a).contains 1 && unitsB W'.log (falses a) then some (a :: gs) else none
    else if W'.book.levels.length = W.book.levels.length + 1 then
      if (falses g).all (fun l => (falses a).contains l) && !(falses a).contains 1 then some (a :: g :: gs) else none
    else if W'.book.levels.length + 1 = W.book.levels.length then
      match gs with | [] => none | _ => some gs
    else none

/-- Sequences of calls with assigned atoms after the call. -/
def trySearch : List (Call × List (Nat × Bool)) → World → Bool → List (List (Nat × Bool)) → Option (World × Bool × List (List (Nat × Bool)))
  | [], W, fr, k => some (W, fr, k)
  | (c, a) :: cs, W, fr, k =>
    if (c.op a).preB W && searchPreB W fr (c.op a) then
      match (c.op a).exec W with
      | .ok (true, W') =>
        match learnsB a W W' k with
        | some k' => trySearch cs W' (freshAfter W fr (c.op a)) k'
        | none => none
      | _ => none
    else none

def known (k : List (List (Nat × Bool))) : List (Int → Prop) := k.map (fun a l => l ∈ falses a)

theorem isMin_iff {con : Constr} : isMin con = true ↔ ∃ a es, con = .minimize a es := by
  cases con <;> simp [isMin]

theorem searchPreB_pre {fr : Bool} {op : Op} {k : List (Int → Prop)} (h : searchPreB W fr op = true) : searchPre ⟨true, fr, k⟩ W op := by
  refine ⟨Or.inl rfl, ?_⟩
  cases op with
  | updateMinimize n level b =>
    simp only [searchPreB, Bool.and_eq_true, decide_eq_true_eq] at h
    obtain ⟨⟨h1, h2⟩, h3⟩ := h
    refine ⟨h1, fun c hc => ?_, fun m c a es hc ha hm => ?_⟩
    · rw [hc] at h2; exact isMin_iff.mp h2
    · rw [List.all_eq_true] at h3
      have := h3 m (List.mem_range.mpr (List.getElem?_eq_some_iff.mp hc).1)
      rw [hc] at this
      simp [ha, isMin_iff.mpr ⟨a, es, hm⟩] at this
      exact this
  | propagate cc ls =>
    simp only [searchPreB, Bool.or_eq_true, Bool.not_eq_true', decide_eq_false_iff_not] at h
    exact fun hlt => h.resolve_left (fun hn => hn hlt)
  | _ => trivial

theorem assigns_false {l : Nat} {a : List (Nat × Bool)} {log : List SEv} {x : Int} (h : (assigns l a).isFalse log x = true) : x ∈ falses a := by
  unfold CC.isFalse CC.value assigns at h
  dsimp only at h
  unfold falses
  by_cases h1 : x.natAbs = 1
  · simp only [h1, if_true] at h
    by_cases hx : x > 0
    · simp [hx] at h
    · have : x = -1 := by omega
      simp [this]
  · simp only [h1, if_false] at h
    cases hf : a.find? (fun p => p.1 == x.natAbs) with
    | none => rw [hf] at h; by_cases hx : x > 0 <;> simp [hx] at h
    | some p =>
      rw [hf] at h
      have hp : p.1 = x.natAbs := by simpa using List.find?_some hf
      refine List.mem_cons_of_mem _ (List.mem_map.mpr ⟨p, List.mem_of_find?_eq_some hf, ?_⟩)
      rw [hp]
      by_cases hx : x > 0
      · simp [hx] at h
        rw [h]
        show ((x.natAbs : Nat) : Int) = x
        omega
      · simp [hx] at h
        rw [h]
        show -((x.natAbs : Nat) : Int) = x
        omega

theorem unitsB_units {log : List SEv} {fs : List Int} (h : unitsB log fs = true) {cl : List Int} (hc : .clause cl ∈ log ∨ .volatile cl ∈ log) :
    ∀ l ∈ cl, (∀ x ∈ cl, x ≠ l → x ∈ fs) → -l ∈ fs := by
  intro l hl hx
  unfold unitsB at h
  rw [List.all_eq_true] at h
  have : cl.all (fun l => !(cl.all (fun x => x == l || fs.contains x)) || fs.contains (-l)) = true := by
    rcases hc with hc | hc <;> exact h _ hc
  rw [List.all_eq_true] at this
  have := this l hl
  have h2 : cl.all (fun x => x == l || fs.contains x) = true := by
    rw [List.all_eq_true]
    intro x hxm
    by_cases e : x = l
    · simp [e]
    · simp [hx x hxm e]
  rw [h2] at this
  simpa using this

theorem learnsB_learns {c : Call} {a : List (Nat × Bool)} {k k' : List (List (Nat × Bool))} (h : learnsB a W W' k = some k') : Learns (c.op a) W W' true (known k) (known k') := by
  cases k with
  | nil => cases h
  | cons g gs =>
    unfold learnsB at h
    dsimp only at h
    split_ifs at h with e1 e2 e3 e4 e5
    · injection h with h
      subst h
      simp only [Bool.and_eq_true, Bool.not_eq_true', List.all_eq_true] at e2
      refine .stay e1 (fun l hl => by simpa using e2.1.1 l hl) (fun hm => by simpa [hm] using e2.1.2) ?_
      intro cc hcc
      cases c with
      | plain op hop => have : envOf op = some cc := hcc; rw [hop] at this; cases this
      | check l ck m =>
        have hcc : some (assigns l a) = some cc := hcc
        injection hcc with hcc
        subst hcc
        refine ⟨fun _ _ _ _ h => h, fun log x _ _ hf => assigns_false hf, fun _ new hnew cl hcl => unitsB_units e2.2 ?_⟩
        rw [hnew]
        exact hcl.imp (List.mem_append_left _) (List.mem_append_left _)
    · injection h with h
      subst h
      simp only [Bool.and_eq_true, Bool.not_eq_true', List.all_eq_true] at e4
      exact .deeper e3 (fun l hl => by simpa using e4.1 l hl) (fun hm => by simpa [hm] using e4.2)
    · cases gs with
      | nil => cases h
      | cons g0 gs =>
        injection h with h
        subst h
        exact .back e5

theorem trySearch_search : ∀ {cs : List (Call × List (Nat × Bool))} {W W' : World} {fr fr' : Bool} {k k' : List (List (Nat × Bool))},
    trySearch cs W fr k = some (W', fr', k') → Search (cs.map (fun p => p.1.op p.2)) W ⟨true, fr, known k⟩ W' ⟨true, fr', known k'⟩
  | [], W, W', fr, fr', k, k', h => by
    simp only [trySearch, Option.some.injEq, Prod.mk.injEq] at h
    obtain ⟨rfl, rfl, rfl⟩ := h
    exact .nil _ _
  | (c, a) :: cs, W, W', fr, fr', k, k', h => by
    unfold trySearch at h
    split at h
    · rename_i hp
      rw [Bool.and_eq_true] at hp
      split at h
      · rename_i W1 hx
        split at h
        · rename_i k1 hk
          exact .cons (Op.preB_iff.mp hp.1) (searchPreB_pre hp.2) hx (learnsB_learns hk) (trySearch_search h)
        · cases h
      · cases h
    · cases h

/-- Two variables in `[0, 10]` with `x + y ≤ 12`, where the sum is to be minimized. On level 1 literal 2 (`x > 4`) is true,
and then `y ≤ 7` is derived, and the bound 9 is reported. -/
def searched : List (Call × List (Nat × Bool)) :=
  [(.plain (.addVar 0 10) rfl, []), (.plain (.addVar 0 10) rfl, []), (.plain (.addConstraint (.sum 1 12 [(1, 0), (1, 1)])) rfl, []),
   (.plain (.addConstraint (.minimize 0 [(1, 0), (1, 1)])) rfl, []), (.plain (.literal (assigns 0 []) 0 4) rfl, []), (.check 0 false 9, []),
   (.plain (.propagate (assigns 1 [(2, true)]) [2]) rfl, [(2, true)]), (.check 1 false 9, [(2, true), (3, false)]),
   (.plain (.propagate (assigns 1 [(2, true), (3, false)]) [-3]) rfl, [(2, true), (3, false)]), (.check 1 false 9, [(2, true), (3, false)]),
   (.plain (.updateMinimize 1 1 9) rfl, [(2, true), (3, false)]), (.check 1 false 9, [(2, true), (3, false), (4, false)])]

def searchEnd : World := ((trySearch searched (World.init 2) true [[]]).map (·.1)).getD (World.init 2)

/-- The hypotheses of the theorems are met in a state in which bounds are derived on level 1 and the objective is bounded. -/
example : ∃ G, Search (searched.map (fun p => p.1.op p.2)) (World.init 2) ⟨true, true, [fun l => l ∈ falses []]⟩ searchEnd G ∧ ¬ (fun l => l ∈ falses []) (1 : Int) ∧
    G.ok = true ∧ G.fresh = true ∧ searchEnd.settled ∧ searchEnd.book.minimizeBound = some 9 ∧ boundsOf searchEnd = [(5, 10), (0, 7)] ∧
    (∃ c, searchEnd.book.cs[0]? = some c ∧ c.alive = true ∧ c.con = .sum 1 12 [(1, 0), (1, 1)] ∧ ∀ g ∈ G.known.head?, ¬ g 1) ∧
    ∃ c, searchEnd.book.cs[1]? = some c ∧ c.alive = true ∧ c.con = .minimize 0 [(1, 0), (1, 1)] := by
  have h : (trySearch searched (World.init 2) true [[]]).map (fun p => (p.2.1, p.2.2)) = some (true, [[(2, true), (3, false), (4, false)], []]) := by decide +kernel
  cases hp : trySearch searched (World.init 2) true [[]] with
  | none => rw [hp] at h; cases h
  | some p =>
    obtain ⟨W, fr, k⟩ := p
    rw [hp] at h
    simp only [Option.map_some, Option.some.injEq, Prod.mk.injEq] at h
    obtain ⟨rfl, rfl⟩ := h
    have e : searchEnd = W := by unfold searchEnd; rw [hp]; rfl
    have hs := trySearch_search hp
    rw [← e] at hs
    refine ⟨_, hs, by decide, rfl, rfl, by constructor; constructor <;> decide +kernel; decide +kernel, by decide +kernel, by decide +kernel, ?_, ?_⟩
    · refine ⟨searchEnd.book.cs[0]?.getD { con := .disjoint 0 [] }, by decide +kernel, by decide +kernel, by decide +kernel, ?_⟩
      intro g hg
      injection hg with hg
      subst hg
      decide
    · exact ⟨searchEnd.book.cs[1]?.getD { con := .disjoint 0 [] }, by decide +kernel, by decide +kernel, by decide +kernel⟩

end Clingcon.Props
