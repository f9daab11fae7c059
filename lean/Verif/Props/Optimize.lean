import Verif.Proof.Optimize

/-! C65: optimization with several threads. -/
set_option linter.unusedVariables false
namespace Clingcon.Props
open Clingcon Spec

variable {cc : CC} {β : Nat → Bool} {σ : Nat → Int} {W W' : World} {n : Int} {k : Nat} {m : MinCon} {S S0 : OState} {E : Nat → CC → World → List Told → Prop}

/-- The shared bound and the models reported so far. -/
structure OptInv (n : Int) (m : MinCon) (S0 S : OState) : Prop where
  reach : ∀ t, ∃ ops, Fed ops (World.init n) [Told.none] (S.threads t) (S.told t)
  same : ∀ t, SameA ((S0.threads t).book.cs.map acon) (frame (S.threads t))
  olds : ∀ b ∈ S.opt.bound :: S.olds, b = NO_BOUND ∨ ∃ val ∈ S.models, b = m.cost val.val - 1
  models : (∀ val ∈ S.models, m.cost val.val ≤ NO_BOUND) → S.models.Pairwise (fun a b => m.cost a.val < m.cost b.val) ∧
    (S.models = [] ∧ S.opt.bound = NO_BOUND ∨ ∃ val ms, S.models = val :: ms ∧ S.opt.bound = m.cost val.val - 1 ∧ S.opt.cost = some (m.cost val.val))

theorem OptInv.objective (hr : Ready n k m S0) (h : OptInv n m S0 S) (t : Nat) :
    ∃ c, (S.threads t).book.cs[k]? = some c ∧ c.alive = true ∧ c.con = .minimize m.adjust m.elems := by
  obtain ⟨c, c1, c2, c3⟩ := hr.objective t
  have e : (S.threads t).book.cs.map acon = (S0.threads t).book.cs.map acon := (h.same t).1
  have : ((S.threads t).book.cs.map acon)[k]? = ((S0.threads t).book.cs.map acon)[k]? := by rw [e]
  rw [List.getElem?_map, List.getElem?_map, c1, Option.map_some, Option.map_eq_some_iff] at this
  obtain ⟨c', d1, d2⟩ := this
  obtain ⟨d3, d4⟩ := Prod.mk.inj d2
  exact ⟨c', d1, by rw [d3, c2], by rw [d4, c3]⟩

theorem onModel_bound {s : OptState} {c : Int} : (s.onModel c).bound = s.bound ∨ (s.onModel c).bound = c - 1 := by
  unfold OptState.onModel
  split_ifs
  · exact Or.inr rfl
  · exact Or.inl rfl

theorem optInv (hn : 1 < n) (hr : Ready n k m S0) (h : Solve k m E S0 S) : OptInv n m S0 S := by
  induction h with
  | start =>
    refine ⟨hr.reach, fun t => IA.sameA (hr.inactive t), ?_, fun _ => ?_⟩
    · rw [hr.bound, hr.olds]
      intro b hb
      rw [List.mem_singleton] at hb
      exact Or.inl hb
    · rw [hr.models]
      exact ⟨.nil, Or.inl ⟨rfl, hr.bound⟩⟩
  | @call S t op r W' _ ho hp hf he hx ih =>
    refine ⟨fun u => ?_, fun u => ?_, ih.olds, ih.models⟩
    · by_cases hu : u = t
      · subst hu
        obtain ⟨ops, ho⟩ := ih.reach u
        simp only [OState.set, Function.update_self]
        exact ⟨_, Fed.trans ho (Fed.one hp hf hx)⟩
      · simp only [OState.set, Function.update_of_ne hu]
        exact ih.reach u
    · by_cases hu : u = t
      · subst hu
        simp only [OState.set, Function.update_self]
        exact searching_sameA ho hx (ih.same u)
      · simp only [OState.set, Function.update_of_ne hu]
        exact ih.same u
  | @check S t cc total b ck cs fuel W' _ hb hl he hx ih =>
    obtain ⟨W0, W1, r, hs⟩ := propCheck_steps hx
    refine ⟨fun u => ?_, fun u => ?_, ih.olds, ih.models⟩
    · by_cases hu : u = t
      · subst hu
        obtain ⟨ops, ho⟩ := ih.reach u
        obtain ⟨_, _, _, f0, f1, f2⟩ := hs.fed (gi_fed ho (gi_init hn)) hl
        simp only [OState.set, Function.update_self]
        exact ⟨_, Fed.trans (Fed.trans (Fed.trans ho f0) f1) f2⟩
      · simp only [OState.set, Function.update_of_ne hu]
        exact ih.reach u
    · by_cases hu : u = t
      · subst hu
        simp only [OState.set, Function.update_self]
        exact (hs.sameA (ih.same u)).2
      · simp only [OState.set, Function.update_of_ne hu]
        exact ih.same u
  | @model S t cc total ck fuel W1 W' β c _ hl hfm he h1 ht hx hnl hlog htt hag hp hrg hc ih =>
    obtain ⟨W0, W2, r, hs⟩ := propCheck_steps hx
    obtain rfl := minimizeValue_eq hc
    obtain ⟨ops, ho⟩ := ih.reach t
    have acc := accepted_bound hn ho hl hfm (ih.objective hr t) (ih.same t).ia h1 ht hx hnl hlog htt hag hp hrg
    refine ⟨fun u => ?_, fun u => ?_, ?_, fun hm => ?_⟩
    · by_cases hu : u = t
      · subst hu
        obtain ⟨_, _, _, f0, f1, f2⟩ := hs.fed (gi_fed ho (gi_init hn)) hl
        simp only [OState.set, Function.update_self]
        exact ⟨_, Fed.trans (Fed.trans (Fed.trans ho f0) f1) f2⟩
      · simp only [OState.set, Function.update_of_ne hu]
        exact ih.reach u
    · by_cases hu : u = t
      · subst hu
        simp only [OState.set, Function.update_self]
        exact (hs.sameA (ih.same u)).2
      · simp only [OState.set, Function.update_of_ne hu]
        exact ih.same u
    · intro b hb
      have old : ∀ b ∈ S.opt.bound :: S.olds, b = NO_BOUND ∨ ∃ val ∈ ⟨t, β, values W'⟩ :: S.models, b = m.cost val.val - 1 := by
        intro b hb
        rcases ih.olds b hb with hq | ⟨val, hv, hq⟩
        · exact Or.inl hq
        · exact Or.inr ⟨val, List.mem_cons_of_mem _ hv, hq⟩
      rcases List.mem_cons.mp hb with rfl | hb
      · rcases onModel_bound (s := S.opt) (c := m.cost (values W')) with hq | hq
        · rw [hq]
          exact old _ (List.mem_cons_self ..)
        · exact Or.inr ⟨⟨t, β, values W'⟩, List.mem_cons_self .., hq⟩
      · exact old b hb
    · have hm : ∀ val ∈ ⟨t, β, values W'⟩ :: S.models, m.cost val.val ≤ NO_BOUND := hm
      obtain ⟨i1, i2⟩ := ih.models (fun val hv => hm val (List.mem_cons_of_mem _ hv))
      have hle : m.cost (values W') ≤ S.opt.bound := by
        by_cases hb : S.opt.bound = NO_BOUND
        · rw [hb]
          exact hm _ (List.mem_cons_self ..)
        · exact acc.2.2.1 hb
      refine ⟨List.pairwise_cons.mpr ⟨fun val hv => ?_, i1⟩, Or.inr ⟨⟨t, β, values W'⟩, S.models, rfl, ?_⟩⟩
      · rcases i2 with ⟨e, -⟩ | ⟨w, ms, e, e2, -⟩
        · rw [e] at hv; cases hv
        · rw [e] at hv i1
          have : m.cost w.val ≤ m.cost val.val := by
            rcases List.mem_cons.mp hv with rfl | hv
            · exact le_refl _
            · exact le_of_lt ((List.pairwise_cons.mp i1).1 val hv)
          show m.cost (values W') < m.cost val.val
          omega
      · show (S.opt.onModel _).bound = _ ∧ (S.opt.onModel _).cost = _
        unfold OptState.onModel
        rw [if_pos hle]
        exact ⟨rfl, rfl⟩

/-- **C65** Consider solving with several threads, whose calls are interleaved in any way. Then, the costs of reported models strictly
decrease, the shared bound is one less than the cost of the last model, and this cost is recorded. -/
theorem C65_decrease (hn : 1 < n) (hr : Ready n k m S0) (h : Solve k m E S0 S) (hm : ∀ val ∈ S.models, m.cost val.val ≤ NO_BOUND) :
    S.models.Pairwise (fun a b => m.cost a.val < m.cost b.val) ∧
    (S.models = [] ∧ S.opt.bound = NO_BOUND ∨ ∃ val ms, S.models = val :: ms ∧ S.opt.bound = m.cost val.val - 1 ∧ S.opt.cost = some (m.cost val.val)) :=
  (optInv hn hr h).models hm

/-- Constraints that do not depend on the bound of the objective. -/
def plain : Constr → Prop
  | .minimize .. => False
  | _ => True

theorem plain_holds {val : Nat → Int} {b : Option Int} {c : Constr} (hp : plain c) (h : conHolds val b c) : conHolds val none c := by
  cases c <;> first | exact h | exact hp.elim

/-- **C65** Moreover, in each reported model, all constraints of the thread whose literals are true hold. -/
theorem C65_solution (hn : 1 < n) (hr : Ready n k m S0) (h : Solve k m E S0 S) :
    ∀ M ∈ S.models, ∀ c ∈ (S0.threads M.thread).book.cs, c.alive = true → plain c.con → litTrue M.truth c.con.lit → conHolds M.val none c.con := by
  induction h with
  | start => intro M hM; rw [hr.models] at hM; cases hM
  | call _ _ _ _ _ _ ih => exact ih
  | check _ _ _ _ _ ih => exact ih
  | @model S t cc total ck fuel W1 W' β c hS hl hfm he h1 ht hx hnl hlog htt hag hp hrg hc ih =>
    intro M hM
    rcases List.mem_cons.mp hM with rfl | hM
    · intro c hc ha hpl hlit
      have inv := optInv hn hr hS
      obtain ⟨ops, ho⟩ := inv.reach t
      have acc := accepted_bound hn ho hl hfm (inv.objective hr t) (inv.same t).ia h1 ht hx hnl hlog htt hag hp hrg
      have e : (S.threads t).book.cs.map acon = (S0.threads t).book.cs.map acon := (inv.same t).1
      have : acon c ∈ (S.threads t).book.cs.map acon := by rw [e]; exact List.mem_map_of_mem hc
      obtain ⟨c', d1, d2⟩ := List.mem_map.mp this
      obtain ⟨d3, d4⟩ := Prod.mk.inj d2
      have := acc.2.2.2 c' d1 (by rw [d3, ha]) (by rw [d4]; exact hlit)
      rw [d4] at this
      exact plain_holds hpl this
    · exact ih M hM

/-- Solving does not exclude an assignment whose cost is below the costs of all models reported so far. -/
theorem solve_adm {β : Nat → Nat → Bool} (hn : 1 < n) (hr : Ready n k m S0)
    (ho : ∀ t, ∀ c ∈ (S0.threads t).book.cs, ∀ a es, c.con = .minimize a es → a = m.adjust ∧ es = m.elems)
    (h : Solve k m (fun t cc W ts => FedAgrees cc (β t) W ts) S0 S) (hc : ∀ M ∈ S.models, m.cost σ < m.cost M.val) :
    ∀ t, ∃ ops, AdmFed (β t) σ ops (S0.threads t) (S0.told t) (S.threads t) (S.told t) := by
  have one : ∀ {S : OState}, OptInv n m S0 S → ∀ t, ∀ c ∈ (S.threads t).book.cs, ∀ a es, c.con = .minimize a es → a = m.adjust ∧ es = m.elems := by
    intro S inv t c hc a es he
    have e : (S.threads t).book.cs.map acon = (S0.threads t).book.cs.map acon := (inv.same t).1
    have : acon c ∈ (S0.threads t).book.cs.map acon := by rw [← e]; exact List.mem_map_of_mem hc
    obtain ⟨c', d1, d2⟩ := List.mem_map.mp this
    obtain ⟨d3, d4⟩ := Prod.mk.inj d2
    exact ho t c' d1 a es (by rw [d4]; exact he)
  have bnd : ∀ {S : OState}, OptInv n m S0 S → (∀ M ∈ S.models, m.cost σ < m.cost M.val) → ∀ b ∈ S.opt.bound :: S.olds, b ≠ NO_BOUND → m.cost σ ≤ b := by
    intro S inv hc b hb hne
    rcases inv.olds b hb with hq | ⟨M, hM, rfl⟩
    · exact absurd hq hne
    · have := hc M hM
      omega
  induction h with
  | start => exact fun t => ⟨[], .nil _ _⟩
  | @call S t op r W' hS hop hp hf he hx ih =>
    intro u
    by_cases hu : u = t
    · subst hu
      obtain ⟨ops, hq⟩ := ih hc u
      simp only [OState.set, Function.update_self]
      refine ⟨_, AdmFed.trans hq (.cons hp hf he ?_ hx (.nil _ _))⟩
      cases op with
      | propagate cc ls => exact fun l hl => (hf.2 l hl).1
      | undo => trivial
      | decide cc l => trivial
      | _ => exact hop.elim
    · simp only [OState.set, Function.update_of_ne hu]
      exact ih hc u
  | @check S t cc total b ck cs fuel W' hS hb hl he hx ih =>
    intro u
    by_cases hu : u = t
    · subst hu
      obtain ⟨W0, W1, r, st⟩ := propCheck_steps hx
      obtain ⟨ops, hq⟩ := ih hc u
      have inv := optInv hn hr hS
      obtain ⟨ops', hq'⟩ := st.adm (gi_fed (inv.reach u).choose_spec (gi_init hn)) hl he (one inv u) (bnd inv hc b hb)
      simp only [OState.set, Function.update_self]
      exact ⟨_, AdmFed.trans hq hq'⟩
    · simp only [OState.set, Function.update_of_ne hu]
      exact ih hc u
  | @model S t cc total ck fuel W1 W' β' c hS hl hfm he h1 ht hx hnl hlog htt hag hp hrg hcost ih =>
    intro u
    have hc' : ∀ M ∈ S.models, m.cost σ < m.cost M.val := fun M hM => hc M (List.mem_cons_of_mem _ hM)
    by_cases hu : u = t
    · subst hu
      obtain ⟨W0, W2, r, st⟩ := propCheck_steps hx
      obtain ⟨ops, hq⟩ := ih hc' u
      have inv := optInv hn hr hS
      obtain ⟨ops', hq'⟩ := st.adm (gi_fed (inv.reach u).choose_spec (gi_init hn)) hl he (one inv u) (bnd inv hc' _ (List.mem_cons_self ..))
      simp only [OState.set, Function.update_self]
      exact ⟨_, AdmFed.trans hq hq'⟩
    · simp only [OState.set, Function.update_of_ne hu]
      exact ih hc' u

/-- **C65** (partial: see `Spec.admits` and `Spec.FedAgrees` for the cases that are left out because the code is wrong for them, as in C57.) Let an
assignment be given that is not excluded by what has been added before solving, and whose cost is below the costs of all models reported
so far. Then, all clauses posted by any of the threads hold for it; in particular, no thread has derived a contradiction. -/
theorem C65_improvable_partial {β : Nat → Nat → Bool} (hn : 1 < n) (hr : Ready n k m S0)
    (hs : ∀ t, ∃ ops, AdmFed (β t) σ ops (World.init n) [Told.none] (S0.threads t) (S0.told t))
    (ho : ∀ t, ∀ c ∈ (S0.threads t).book.cs, ∀ a es, c.con = .minimize a es → a = m.adjust ∧ es = m.elems)
    (h : Solve k m (fun t cc W ts => FedAgrees cc (β t) W ts) S0 S) (hc : ∀ M ∈ S.models, m.cost σ < m.cost M.val) (t : Nat) (hrs : Respects (β t) σ (S.threads t).log) :
    AllHold (β t) (S.threads t).log ∧ SEv.clause [] ∉ (S.threads t).log := by
  obtain ⟨ops0, hq0⟩ := hs t
  obtain ⟨ops, hq1⟩ := solve_adm hn hr ho h hc t
  have hq := AdmFed.trans hq0 hq1
  obtain ⟨r1, r2, -, -⟩ := C57_fed_partial hn hq hrs
  exact ⟨r1, r2⟩

/-- **C65** (partial, as above) If a clause has been posted that is false for an assignment that is not excluded by what has been added, for example, because the search
has ended with a contradiction, then the last model that has been reported is at least as good as the assignment. -/
theorem C65_optimal_partial {β : Nat → Nat → Bool} (hn : 1 < n) (hr : Ready n k m S0)
    (hs : ∀ t, ∃ ops, AdmFed (β t) σ ops (World.init n) [Told.none] (S0.threads t) (S0.told t))
    (ho : ∀ t, ∀ c ∈ (S0.threads t).book.cs, ∀ a es, c.con = .minimize a es → a = m.adjust ∧ es = m.elems)
    (h : Solve k m (fun t cc W ts => FedAgrees cc (β t) W ts) S0 S) (hm : ∀ M ∈ S.models, m.cost M.val ≤ NO_BOUND)
    (t : Nat) (hrs : Respects (β t) σ (S.threads t).log) (hx : ¬ AllHold (β t) (S.threads t).log) :
    ∃ M ms, S.models = M :: ms ∧ m.cost M.val ≤ m.cost σ := by
  obtain ⟨M, hM, hle⟩ : ∃ M ∈ S.models, m.cost M.val ≤ m.cost σ := by
    by_contra hcon
    refine hx (C65_improvable_partial hn hr hs ho h (fun M hM => ?_) t hrs).1
    by_contra hq
    exact hcon ⟨M, hM, by omega⟩
  obtain ⟨h1, h2⟩ := C65_decrease hn hr h hm
  rcases h2 with ⟨e, -⟩ | ⟨M0, ms, e, -, -⟩
  · rw [e] at hM; cases hM
  · refine ⟨M0, ms, e, ?_⟩
    rw [e] at h1 hM
    rcases List.mem_cons.mp hM with rfl | hM
    · exact hle
    · exact le_trans (le_of_lt ((List.pairwise_cons.mp h1).1 M hM)) hle

/-! ### A concrete case -/

/-- The state after a computation. -/
def ran {α : Type} (x : SM α) (W : World) : World := ((x W).toOption.map Prod.snd).getD W

theorem ran_eq {α : Type} {x : SM α} {a : α} (h : (x W).toOption.map Prod.fst = some a) : x W = .ok (a, ran x W) := by
  unfold ran
  cases hx : x W with
  | error e => rw [hx] at h; cases h
  | ok p =>
    rw [hx] at h
    injection h with h
    subst h
    rfl

/-- The steps of `Solve` with the state of the thread given as an equation, for the example. -/
theorem step_call {k : Nat} {m : MinCon} {E : Nat → CC → World → List Told → Prop} {S0 S : OState} {t : Nat} {op : Op} {r : Bool} {W W' : World} {ts ts' : List Told}
    (h : Solve k m E S0 S) (hW : S.threads t = W) (ht : S.told t = ts) (h1 : searching op) (h2 : op.pre W) (h3 : feedPre ts W op)
    (h4 : ∀ cc, opEnv op = some cc → E t cc W ts) (h5 : op.exec W = .ok (r, W')) (h6 : toldAfter op W W' r ts = ts') : Solve k m E S0 (S.set t W' ts') := by
  subst hW ht h6
  exact Solve.call h h1 h2 h3 h4 h5

theorem step_check {k : Nat} {m : MinCon} {E : Nat → CC → World → List Told → Prop} {S0 S : OState} {t : Nat} {cc : CC} {total : List SEv → Bool} {b : Int} {ck cs : Bool}
    {fuel : Nat} {W W' : World} {ts : List Told} (h : Solve k m E S0 S) (hW : S.threads t = W) (ht : S.told t = ts) (h1 : b ∈ S.opt.bound :: S.olds)
    (h2 : W.level ≤ cc.level) (h3 : E t cc W ts) (h4 : propCheck cc total (some (k, m)) b ck cs fuel W = .ok ((), W')) : Solve k m E S0 (S.set t W' ts) := by
  subst hW ht
  exact Solve.check h h1 h2 h3 h4

theorem step_model {k : Nat} {m : MinCon} {E : Nat → CC → World → List Told → Prop} {S0 S : OState} {t : Nat} {cc : CC} {total : List SEv → Bool} {ck : Bool} {fuel : Nat}
    {W W1 W' : World} {ts : List Told} {b : Int} {bs : List Int} {β : Nat → Bool} {c : Int} {o : OptState} {ms : List Report} (h : Solve k m E S0 S) (hW : S.threads t = W)
    (ht : S.told t = ts) (hb : S.opt.bound = b) (hbs : S.olds = bs) (hms : S.models = ms) (ho : S.opt.onModel c = o) (h1 : W.level ≤ cc.level)
    (h2 : cc.level = W.level ∨ W.factmap = []) (h3 : E t cc W ts) (h4 : boundAndCheck cc (some (k, m)) b ck fuel W = .ok (true, W1)) (h5 : total W1.log = true)
    (h6 : propCheck cc total (some (k, m)) b ck true fuel W = .ok ((), W')) (h7 : W1.nextLit = W.nextLit) (h8 : W'.log = W1.log) (h9 : litTrue β 1)
    (h10 : ∀ c ∈ W1.book.cs, litTrue β c.con.lit → cc.isTrue W1.log c.con.lit = true) (h11 : PassedAll β W1 ts) (h12 : ranged W1)
    (h13 : W'.minimizeValue m = some c) :
    Solve k m E S0 { S.set t W' ts with opt := o, olds := b :: bs, models := ⟨t, β, values W'⟩ :: ms } := by
  subst hW ht hb hbs hms ho
  exact Solve.model h h1 h2 h3 h4 h5 h6 h7 h8 h9 h10 h11 h12 h13

/-- A variable `x` with domain `[0, 1]`, which is minimized; the complement of literal `2` stands for `x ≤ 0`. -/
def optObj : MinCon := ⟨0, [(1, 0)]⟩
def optA := after (.addVar 0 1) (World.init 2)
def optB := after (.addConstraint (.minimize 0 [(1, 0)])) optA
def optC := after (.literal idle 0 0) optB
def opt0 := after (.check idle false 9) optC

/-- The first thread decides that `x > 0` and reports a model with cost 1. The second thread decides that `x ≤ 0`, checks without having got the new
bound, and reports a model with cost 0. Then, the first thread backtracks and finds that there are no better models. -/
def chooseHigh : CC := assigns 1 [(2, true)]
def chooseLow : CC := assigns 1 [(2, false)]
def optCheck (cc : CC) (b : Int) : SM Unit := propCheck cc (fun _ => true) (some (0, optObj)) b false true 9
def opt1 := after (.propagate chooseHigh [2]) opt0
def opt2 := ran (optCheck chooseHigh NO_BOUND) opt1
def opt3 := after (.propagate chooseLow [-2]) opt0
def opt4 := ran (optCheck chooseLow NO_BOUND) opt3
def opt5 := ran (optCheck chooseLow 0) opt4
def opt6 := after .undo opt2
def opt7 := ran (optCheck idle (-1)) opt6

def highβ (a : Nat) : Bool := decide (a = 1 ∨ a = 2)
def lowβ (a : Nat) : Bool := decide (a = 1)

def optStart : OState := ⟨fun _ => opt0, fun _ => [Told.none], {}, [], []⟩
def highTold : Told := Told.none.add true [2]
def lowTold : Told := Told.none.add true [-2]
def optS1 : OState := optStart.set 0 opt1 [highTold, Told.none]
def optS2 : OState := { optS1.set 0 opt2 [highTold, Told.none] with opt := ⟨0, some 1⟩, olds := [NO_BOUND], models := [⟨0, highβ, values opt2⟩] }
def optS3 : OState := optS2.set 1 opt3 [lowTold, Told.none]
def optS4 : OState := optS3.set 1 opt4 [lowTold, Told.none]
def optS5 : OState :=
  { optS4.set 1 opt5 [lowTold, Told.none] with opt := ⟨-1, some 0⟩, olds := [0, NO_BOUND], models := [⟨1, lowβ, values opt5⟩, ⟨0, highβ, values opt2⟩] }
def optS6 : OState := optS5.set 0 opt6 [Told.none]
def optS7 : OState := optS6.set 0 opt7 [Told.none]

/-- The assignment `x = 0`. -/
def zero (_ : Nat) : Int := 0

theorem low_sound : EnvSound idle lowβ := idle_sound (by decide)

theorem opt_agrees {cc : CC} {W : World} {ts : List Told} (h1 : EnvSound cc lowβ) (h2 : EnvMono cc)
    (h3 : W.book.cs.all (fun c => match c.con with | .minimize .. => true | _ => false) = true)
    (h4 : ∀ t, ts.head? = some t → ∀ l, t.tried l → cc.isTrue W.log l = true) : FedAgrees cc lowβ W ts := by
  refine ⟨h1, h2, fun c hc l hl log _ _ => ?_, h4⟩
  have := List.all_eq_true.mp h3 c hc
  rcases hl with ⟨es, hl⟩ | ⟨es, hl⟩ <;> rw [hl] at this <;> cases this

theorem told_none {cc : CC} {W : World} (t : Told) (ht : [Told.none].head? = some t) (l : Int) (hl : t.tried l) : cc.isTrue W.log l = true := by
  injection ht with ht
  subst ht
  exact hl.elim

theorem told_one {cc : CC} {W : World} {l0 : Int} (h : cc.isTrue W.log l0 = true) (t : Told) (ht : [Told.none.add true [l0], Told.none].head? = some t) (l : Int) (hl : t.tried l) :
    cc.isTrue W.log l = true := by
  injection ht with ht
  subst ht
  rcases hl with hl | hl
  · exact hl.elim
  · rw [List.mem_singleton] at hl
    subst hl
    exact h

theorem opt_adm : AdmFed lowβ zero [.addVar 0 1, .addConstraint (.minimize 0 [(1, 0)]), .literal idle 0 0, .check idle false 9] (World.init 2) [Told.none] opt0 [Told.none] := by
  refine .cons (Op.preB_iff.mp (by decide +kernel)) trivial (fun cc h => by cases h) (by constructor <;> decide +kernel) (after_eq (r := true) (by decide +kernel)) ?_
  refine .cons (Op.preB_iff.mp (by decide +kernel)) trivial (fun cc h => by cases h) ⟨by decide, ?_⟩ (after_eq (r := true) (by decide +kernel)) ?_
  · intro b hb
    have : optA.book.minimizeBound = none := by decide +kernel
    have hb : optA.book.minimizeBound = some b := hb
    rw [this] at hb
    cases hb
  refine .cons (Op.preB_iff.mp (by decide +kernel)) ?_ ?_ trivial (after_eq (r := true) (by decide +kernel)) ?_
  · show _ ≤ _
    decide +kernel
  · rintro cc ⟨⟩
    exact opt_agrees low_sound idle_mono (by decide +kernel) told_none
  refine .cons (Op.preB_iff.mp (by decide +kernel)) ?_ ?_ trivial (after_eq (r := true) (by decide +kernel)) (.nil _ _)
  · show _ ≤ _
    decide +kernel
  · rintro cc ⟨⟩
    exact opt_agrees low_sound idle_mono (by decide +kernel) told_none

theorem opt_ready : Ready 2 0 optObj optStart := by
  refine ⟨rfl, rfl, rfl, fun t => ⟨_, AdmFed.fed opt_adm⟩, fun t => ?_, fun t i hi => ?_⟩
  · have : opt0.book.cs[0]?.map (fun c => (c.alive, c.con)) = some (true, .minimize 0 [(1, 0)]) := by decide +kernel
    rw [Option.map_eq_some_iff] at this
    obtain ⟨c, h1, h2⟩ := this
    obtain ⟨h3, h4⟩ := Prod.mk.inj h2
    exact ⟨c, h1, h3, h4⟩
  · have : opt0.book.inactive = [] := by decide +kernel
    have hi : i ∈ opt0.book.inactive := hi
    rw [this] at hi
    cases hi

theorem opt_passed {β : Nat → Bool} {W : World} {l0 : Int} (hv : W.vars.map (·.with) = [[(0, -2)]]) (h0 : l0 = 2 ∨ l0 = -2) (hl : litTrue β l0) :
    PassedAll β W [Told.none.add true [l0], Told.none] := by
  refine ⟨_, _, rfl, ?_⟩
  rintro v k l ⟨vs, h1, h2⟩
  have : vs.with ∈ W.vars.map (·.with) := List.mem_map_of_mem (List.mem_of_getElem? h1)
  rw [hv, List.mem_singleton] at this
  rw [this, List.mem_singleton] at h2
  obtain ⟨rfl, rfl⟩ := Prod.mk.inj h2
  rcases h0 with rfl | rfl
  · refine ⟨fun h => ?_, fun _ => Or.inr ⟨rfl, by simp⟩⟩
    simp [litTrue] at h hl
    rw [hl] at h
    cases h
  · exact ⟨fun _ => Or.inr ⟨rfl, by simp⟩, fun h => absurd hl h⟩

theorem opt_range {W : World} (h : W.vars.all (fun vs => decide (Limits.val.Fits vs.lower ∧ Limits.val.Fits vs.upper)) = true) : ranged W := by
  intro v vs hv
  have := List.all_eq_true.mp h vs (List.mem_of_getElem? hv)
  simpa using this

theorem thread_set (S : OState) (t : Nat) (W : World) (ts : List Told) : (S.set t W ts).threads t = W ∧ (S.set t W ts).told t = ts := by
  simp [OState.set, Function.update]

theorem thread_other (S : OState) {t u : Nat} (W : World) (ts : List Told) (h : t ≠ u) : (S.set u W ts).threads t = S.threads t ∧ (S.set u W ts).told t = S.told t := by
  simp [OState.set, Function.update, h]

theorem thread_with (S : OState) (o : OptState) (bs : List Int) (ms : List Report) :
    ({ S with opt := o, olds := bs, models := ms } : OState).threads = S.threads ∧ ({ S with opt := o, olds := bs, models := ms } : OState).told = S.told := ⟨rfl, rfl⟩

theorem at1 : optS1.threads 0 = opt1 ∧ optS1.told 0 = [highTold, Told.none] := by
  unfold optS1
  exact thread_set _ _ _ _

theorem at2 : (optS2.threads 0 = opt2 ∧ optS2.told 0 = [highTold, Told.none]) ∧ optS2.threads 1 = opt0 ∧ optS2.told 1 = [Told.none] := by
  unfold optS2
  rw [(thread_with _ _ _ _).1, (thread_with _ _ _ _).2]
  refine ⟨thread_set _ _ _ _, ?_⟩
  rw [(thread_other _ _ _ (by decide)).1, (thread_other _ _ _ (by decide)).2]
  unfold optS1
  rw [(thread_other _ _ _ (by decide)).1, (thread_other _ _ _ (by decide)).2]
  unfold optStart
  exact ⟨rfl, rfl⟩

theorem at3 : (optS3.threads 0 = opt2 ∧ optS3.told 0 = [highTold, Told.none]) ∧ optS3.threads 1 = opt3 ∧ optS3.told 1 = [lowTold, Told.none] := by
  unfold optS3
  refine ⟨?_, thread_set _ _ _ _⟩
  rw [(thread_other _ _ _ (by decide)).1, (thread_other _ _ _ (by decide)).2]
  exact at2.1

theorem at4 : (optS4.threads 0 = opt2 ∧ optS4.told 0 = [highTold, Told.none]) ∧ optS4.threads 1 = opt4 ∧ optS4.told 1 = [lowTold, Told.none] := by
  unfold optS4
  refine ⟨?_, thread_set _ _ _ _⟩
  rw [(thread_other _ _ _ (by decide)).1, (thread_other _ _ _ (by decide)).2]
  exact at3.1

theorem at5 : optS5.threads 0 = opt2 ∧ optS5.told 0 = [highTold, Told.none] := by
  unfold optS5
  rw [(thread_with _ _ _ _).1, (thread_with _ _ _ _).2, (thread_other _ _ _ (by decide)).1, (thread_other _ _ _ (by decide)).2]
  exact at4.1

theorem at6 : optS6.threads 0 = opt6 ∧ optS6.told 0 = [Told.none] := by
  unfold optS6
  exact thread_set _ _ _ _

theorem at7 : optS7.threads 0 = opt7 ∧ optS7.told 0 = [Told.none] := by
  unfold optS7
  exact thread_set _ _ _ _

theorem opt_high : Solve 0 optObj (fun _ cc W ts => FedAgrees cc lowβ W ts) optStart optS2 := by
  have sHigh : EnvSound chooseHigh lowβ := assigns_sound (by decide) (by decide)
  have mono : EnvMono chooseHigh := fun _ _ _ _ h => h
  have s1 : Solve 0 optObj (fun _ cc W ts => FedAgrees cc lowβ W ts) optStart optS1 := by
    refine step_call (W := opt0) (ts := [Told.none]) (t := 0) (op := .propagate chooseHigh [2]) (r := true) (W' := opt1) .start rfl rfl trivial
      (Op.preB_iff.mp (by decide +kernel)) (by show _ ≤ _ ∧ _; decide +kernel) (fun cc h => by cases h; exact opt_agrees sHigh mono (by decide +kernel) told_none)
      (after_eq (by decide +kernel)) ?_
    have : opt0.book.levels.length < opt1.book.levels.length := by decide +kernel
    simp only [toldAfter, if_pos this, highTold]
  refine step_model (W := opt1) (ts := [highTold, Told.none]) (b := NO_BOUND) (bs := []) (ms := []) (o := ⟨0, some 1⟩) (t := 0) (cc := chooseHigh) (total := fun _ => true)
    (ck := false) (fuel := 9) (W1 := ran (boundAndCheck chooseHigh (some (0, optObj)) NO_BOUND false 9) opt1) (W' := opt2) (β := highβ) (c := 1) s1
    at1.1 at1.2 rfl rfl rfl ?_ (by decide +kernel) (Or.inl (by decide +kernel)) (opt_agrees sHigh mono (by decide +kernel) (told_one (by decide +kernel)))
    (ran_eq (by decide +kernel)) rfl (ran_eq (x := optCheck chooseHigh NO_BOUND) (by decide +kernel)) (by decide +kernel) (by decide +kernel) (by show highβ 1 = true; decide) ?_
    (opt_passed (by decide +kernel) (Or.inl rfl) (by show highβ 2 = true; decide)) (opt_range (by decide +kernel)) (by decide +kernel)
  · show ({} : OptState).onModel 1 = _
    unfold OptState.onModel
    rw [if_pos (by decide)]
    rfl
  · have : (ran (boundAndCheck chooseHigh (some (0, optObj)) NO_BOUND false 9) opt1).book.cs.all (fun c => chooseHigh.isTrue
      (ran (boundAndCheck chooseHigh (some (0, optObj)) NO_BOUND false 9) opt1).log c.con.lit) = true := by decide +kernel
    exact fun c hc _ => List.all_eq_true.mp this c hc

theorem opt_low : Solve 0 optObj (fun _ cc W ts => FedAgrees cc lowβ W ts) optStart optS5 := by
  have sLow : EnvSound chooseLow lowβ := assigns_sound (by decide) (by decide)
  have mono : EnvMono chooseLow := fun _ _ _ _ h => h
  have s3 : Solve 0 optObj (fun _ cc W ts => FedAgrees cc lowβ W ts) optStart optS3 := by
    refine step_call (W := opt0) (ts := [Told.none]) (t := 1) (op := .propagate chooseLow [-2]) (r := true) (W' := opt3) opt_high at2.2.1 at2.2.2 trivial
      (Op.preB_iff.mp (by decide +kernel)) (by show _ ≤ _ ∧ _; decide +kernel) (fun cc h => by cases h; exact opt_agrees sLow mono (by decide +kernel) told_none)
      (after_eq (by decide +kernel)) ?_
    have : opt0.book.levels.length < opt3.book.levels.length := by decide +kernel
    simp only [toldAfter, if_pos this, lowTold]
  have s4 : Solve 0 optObj (fun _ cc W ts => FedAgrees cc lowβ W ts) optStart optS4 :=
    step_check (W := opt3) (ts := [lowTold, Told.none]) (t := 1) (cc := chooseLow) (total := fun _ => true) (b := NO_BOUND) (ck := false) (cs := true) (fuel := 9) (W' := opt4)
      s3 at3.2.1 at3.2.2 (by show _ ∈ [0, NO_BOUND]; simp) (by decide +kernel) (opt_agrees sLow mono (by decide +kernel) (told_one (by decide +kernel)))
      (ran_eq (x := optCheck chooseLow NO_BOUND) (by decide +kernel))
  refine step_model (W := opt4) (ts := [lowTold, Told.none]) (b := 0) (bs := [NO_BOUND]) (ms := [⟨0, highβ, values opt2⟩]) (o := ⟨-1, some 0⟩) (t := 1) (cc := chooseLow)
    (total := fun _ => true) (ck := false) (fuel := 9) (W1 := ran (boundAndCheck chooseLow (some (0, optObj)) 0 false 9) opt4) (W' := opt5) (β := lowβ) (c := 0) s4
    at4.2.1 at4.2.2 rfl rfl rfl ?_ (by decide +kernel) (Or.inl (by decide +kernel)) (opt_agrees sLow mono (by decide +kernel) (told_one (by decide +kernel)))
    (ran_eq (by decide +kernel)) rfl (ran_eq (x := optCheck chooseLow 0) (by decide +kernel)) (by decide +kernel) (by decide +kernel) (by show lowβ 1 = true; decide) ?_
    (opt_passed (by decide +kernel) (Or.inr rfl) (by simp [litTrue, lowβ])) (opt_range (by decide +kernel)) (by decide +kernel)
  · show (⟨0, some 1⟩ : OptState).onModel 0 = _
    unfold OptState.onModel
    rw [if_pos (by decide)]
    rfl
  · have : (ran (boundAndCheck chooseLow (some (0, optObj)) 0 false 9) opt4).book.cs.all (fun c => chooseLow.isTrue
      (ran (boundAndCheck chooseLow (some (0, optObj)) 0 false 9) opt4).log c.con.lit) = true := by decide +kernel
    exact fun c hc _ => List.all_eq_true.mp this c hc

theorem opt_solve : Solve 0 optObj (fun _ cc W ts => FedAgrees cc lowβ W ts) optStart optS7 := by
  have s6 : Solve 0 optObj (fun _ cc W ts => FedAgrees cc lowβ W ts) optStart optS6 :=
    step_call (W := opt2) (ts := [highTold, Told.none]) (t := 0) (op := .undo) (r := true) (W' := opt6) opt_low at5.1 at5.2 trivial trivial trivial (fun cc h => by cases h)
      (after_eq (by decide +kernel)) rfl
  exact step_check (W := opt6) (ts := [Told.none]) (t := 0) (cc := idle) (total := fun _ => true) (b := -1) (ck := false) (cs := true) (fuel := 9) (W' := opt7)
    s6 at6.1 at6.2 (by show _ ∈ [-1, 0, NO_BOUND]; simp) (by decide +kernel) (opt_agrees low_sound idle_mono (by decide +kernel) told_none)
    (ran_eq (x := optCheck idle (-1)) (by decide +kernel))

theorem opt_models : optS7.models = [⟨1, lowβ, values opt5⟩, ⟨0, highβ, values opt2⟩] := by
  unfold optS7 optS6 optS5 OState.set
  exact rfl

theorem small_of {v1 v2 : Nat → Int} (h1 : optObj.cost v1 = 0) (h2 : optObj.cost v2 = 1) (M : Report) (hM : M ∈ [(⟨1, lowβ, v1⟩ : Report), ⟨0, highβ, v2⟩]) :
    optObj.cost M.val ≤ NO_BOUND := by
  simp only [List.mem_cons, List.not_mem_nil, or_false] at hM
  rcases hM with rfl | rfl
  · exact le_of_eq_of_le h1 (by decide)
  · exact le_of_eq_of_le h2 (by decide)

theorem opt_small : ∀ M ∈ optS7.models, optObj.cost M.val ≤ NO_BOUND := by
  rw [opt_models]
  exact small_of (by decide +kernel) (by decide +kernel)

theorem opt_stop : ¬ AllHold lowβ opt7.log := by
  intro h
  have hm : SEv.volatile [-1] ∈ opt7.log := by decide +kernel
  obtain ⟨l, hl, ht⟩ := h _ hm
  rw [List.mem_singleton] at hl
  subst hl
  simp [litTrue, lowβ] at ht

theorem opt_only (c : CState) (hc : c ∈ opt0.book.cs) (a : Int) (es : List (Int × Nat)) (he : c.con = .minimize a es) : a = optObj.adjust ∧ es = optObj.elems := by
  have e : opt0.book.cs.map (·.con) = [.minimize 0 [(1, 0)]] := by decide +kernel
  have : c.con ∈ opt0.book.cs.map (·.con) := List.mem_map_of_mem hc
  rw [e, List.mem_singleton, he] at this
  injection this with h1 h2
  exact ⟨h1, h2⟩

/-- The hypotheses of the theorems are met, and `C65_optimal_partial` shows that the last model is optimal. -/
example : ∃ M ms, optS7.models = M :: ms ∧ optObj.cost M.val ≤ optObj.cost zero :=
  C65_optimal_partial (β := fun _ => lowβ) (by decide) opt_ready (fun _ => ⟨_, opt_adm⟩) (fun _ => opt_only) opt_solve opt_small
    0 (by rw [at7.1]; exact respects_of (by decide +kernel)) (by rw [at7.1]; exact opt_stop)

end Clingcon.Props
