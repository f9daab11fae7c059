import Verif.Proof.Simplify
import Verif.Spec.Terms
import Verif.Spec.Symbols

/-! Helper lemmas about parsing of terms. -/
namespace Clingcon
open Spec
set_option linter.unusedSimpArgs false

theorem toNum_ok {s : Sym} {n : Int} (h : s.toNum = .ok n) : s = .num n := by
  cases s <;> simp [Sym.toNum] at h
  rw [h]

section
variable {pow : Int → Int → Res Int} {lex : String → Option Sym} {powS : Int → Int → Option Int}
  (hlex : ∀ n s, evalName n = .ok s → lex n = some s)
  (hpow : ∀ x y z, pow x y = .ok z → powS x y = some z)

include hlex hpow in
theorem evaluate_spec : (∀ t s, evaluate pow t = .ok s → ground lex powS t = some s) ∧
    (∀ ts ss, evaluateArgs pow ts = .ok ss → grounds lex powS ts = some ss) := by
  apply evaluate.mutual_induct (motive_1 := fun t => ∀ s, evaluate pow t = .ok s → ground lex powS t = some s)
    (motive_2 := fun ts => ∀ ss, evaluateArgs pow ts = .ok ss → grounds lex powS ts = some ss)
  case case1 =>
    intro name s h
    simp only [evaluate] at h
    simp only [ground]
    exact hlex _ _ h
  case case2 =>
    intro n s h
    simp only [evaluate, Except.ok.injEq] at h
    simp [ground, h]
  case case3 =>
    intro a b  iha ihb s h
    simp only [evaluate, String.reduceEq, if_true, if_false] at h
    obtain ⟨sa, ha, h⟩ := bind_ok h
    obtain ⟨x, hx, h⟩ := bind_ok h
    obtain ⟨sb, hb, h⟩ := bind_ok h
    obtain ⟨y, hy, h⟩ := bind_ok h
    obtain ⟨z, hz, h⟩ := bind_ok h
    have := pure_ok h; subst this
    have := toNum_ok hx; subst this
    have := toNum_ok hy; subst this
    have ha := iha _ ha
    have hb := ihb _ hb
    have hz := (safeAdd_ok hz).1
    simp [ground, arithOp, ha, hb, numOf, hz]
  case case4 =>
    intro a b _ iha ihb s h
    simp only [evaluate, String.reduceEq, if_true, if_false] at h
    obtain ⟨sa, ha, h⟩ := bind_ok h
    obtain ⟨x, hx, h⟩ := bind_ok h
    obtain ⟨sb, hb, h⟩ := bind_ok h
    obtain ⟨y, hy, h⟩ := bind_ok h
    obtain ⟨z, hz, h⟩ := bind_ok h
    have := pure_ok h; subst this
    have := toNum_ok hx; subst this
    have := toNum_ok hy; subst this
    have ha := iha _ ha
    have hb := ihb _ hb
    have hz := (safeSub_ok hz).1
    simp [ground, arithOp, ha, hb, numOf, hz]
  case case5 =>
    intro a b _ _ iha ihb s h
    simp only [evaluate, String.reduceEq, if_true, if_false] at h
    obtain ⟨sa, ha, h⟩ := bind_ok h
    obtain ⟨x, hx, h⟩ := bind_ok h
    obtain ⟨sb, hb, h⟩ := bind_ok h
    obtain ⟨y, hy, h⟩ := bind_ok h
    obtain ⟨z, hz, h⟩ := bind_ok h
    have := pure_ok h; subst this
    have := toNum_ok hx; subst this
    have := toNum_ok hy; subst this
    have ha := iha _ ha
    have hb := ihb _ hb
    have hz := (safeMul_ok hz).1
    simp [ground, arithOp, ha, hb, numOf, hz]
  case case6 =>
    intro a b _ _ _ iha ihb s h
    simp only [evaluate, String.reduceEq, if_true, if_false] at h
    obtain ⟨sa, ha, h⟩ := bind_ok h
    obtain ⟨x, hx, h⟩ := bind_ok h
    obtain ⟨sb, hb, h⟩ := bind_ok h
    obtain ⟨y, hy, h⟩ := bind_ok h
    obtain ⟨z, hz, h⟩ := bind_ok h
    have := pure_ok h; subst this
    have := toNum_ok hx; subst this
    have := toNum_ok hy; subst this
    have ha := iha _ ha
    have hb := ihb _ hb
    have hz := safeDiv_ok hz
    simp [ground, arithOp, ha, hb, numOf, hz]
  case case7 =>
    intro a b _ _ _ _ iha ihb s h
    simp only [evaluate, String.reduceEq, if_true, if_false] at h
    obtain ⟨sa, ha, h⟩ := bind_ok h
    obtain ⟨x, hx, h⟩ := bind_ok h
    obtain ⟨sb, hb, h⟩ := bind_ok h
    obtain ⟨y, hy, h⟩ := bind_ok h
    obtain ⟨z, hz, h⟩ := bind_ok h
    have := pure_ok h; subst this
    have := toNum_ok hx; subst this
    have := toNum_ok hy; subst this
    have ha := iha _ ha
    have hb := ihb _ hb
    have hz := safeMod_ok hz
    simp [ground, arithOp, ha, hb, numOf, hz]
  case case8 =>
    intro a b _ _ _ _ _ iha ihb s h
    simp only [evaluate, String.reduceEq, if_true, if_false] at h
    obtain ⟨sa, ha, h⟩ := bind_ok h
    obtain ⟨x, hx, h⟩ := bind_ok h
    obtain ⟨sb, hb, h⟩ := bind_ok h
    obtain ⟨y, hy, h⟩ := bind_ok h
    obtain ⟨z, hz, h⟩ := bind_ok h
    have := pure_ok h; subst this
    have := toNum_ok hx; subst this
    have := toNum_ok hy; subst this
    have ha := iha _ ha
    have hb := ihb _ hb
    have hz := hpow _ _ _ hz
    simp [ground, arithOp, ha, hb, numOf, hz]
  case case9 =>
    intro a b _ _ _ _ _ _ s h
    simp [evaluate] at h
  case case10 =>
    intro name a b h1 h2 h3 h4 h5 h6 h7 iha ihb s h
    simp only [evaluate, h1, h2, h3, h4, h5, h6, h7, if_false] at h
    obtain ⟨sa, ha, h⟩ := bind_ok h
    obtain ⟨sb, hb, h⟩ := bind_ok h
    have := pure_ok h; subst this
    simp [ground, arithOp, h1, h2, h3, h4, h5, h6, h7, iha _ ha, ihb _ hb]
  case case11 =>
    intro a iha s h
    simp only [evaluate, if_true] at h
    obtain ⟨sa, ha, h⟩ := bind_ok h
    have ha := iha _ ha
    cases sa with
    | num n =>
      obtain ⟨z, hz, h⟩ := bind_ok h
      have := pure_ok h; subst this
      have hz := (safeInv_ok hz).1
      simp [ground, ha, hz]
    | fn f args pos =>
      simp only at h
      split_ifs at h with hl
      · have := pure_ok h; subst this
        simp [ground, ha, hl]
    | str x => cases h
  case case12 =>
    intro name a h1 iha s h
    simp only [evaluate, h1, if_false] at h
    obtain ⟨sa, ha, h⟩ := bind_ok h
    have := pure_ok h; subst this
    simp [ground, h1, iha _ ha]
  case case13 =>
    intro name args h1 h2 ih s h
    rw [evaluate] at h
    · obtain ⟨sa, ha, h⟩ := bind_ok h
      have := pure_ok h; subst this
      rw [ground]
      · simp [ih _ ha]
      all_goals first | exact h1 | exact h2
    all_goals first | exact h1 | exact h2
  case case14 =>
    intro args ih s h
    simp only [evaluate] at h
    obtain ⟨sa, ha, h⟩ := bind_ok h
    have := pure_ok h; subst this
    simp [ground, ih _ ha]
  case case15 =>
    intro args s h
    simp [evaluate] at h
  case case16 =>
    intro ss h
    simp only [evaluateArgs, Except.ok.injEq] at h
    simp [grounds, h]
  case case17 =>
    intro t ts iht ihts ss h
    simp only [evaluateArgs] at h
    obtain ⟨sa, ha, h⟩ := bind_ok h
    obtain ⟨sb, hb, h⟩ := bind_ok h
    have := pure_ok h; subst this
    simp [grounds, iht _ ha, ihts _ hb]
end

/-! ### State -/

theorem bindS_ok {α β : Type} {x : BM α} {f : α → BM β} {s : BState} {r : β × BState}
    (h : (x >>= f) s = .ok r) : ∃ a s', x s = .ok (a, s') ∧ f a s' = .ok r := by
  obtain ⟨⟨a, s'⟩, h1, h2⟩ := bind_ok (x := x s) (f := fun p => f p.1 p.2) h
  exact ⟨a, s', h1, h2⟩

theorem pureS_ok {α : Type} {a : α} {s : BState} {r : α × BState} (h : (pure a : BM α) s = .ok r) : r = (a, s) := by
  injection h with h
  exact h.symm

theorem liftS_ok {α : Type} {x : Res α} {s : BState} {r : α × BState} (h : (liftM x : BM α) s = .ok r) :
    x = .ok r.1 ∧ r.2 = s := by
  cases x with
  | error e => cases h
  | ok a => injection h with h; subst h; exact ⟨rfl, rfl⟩

theorem liftBind_ok {α β : Type} {x : Res α} {f : α → BM β} {s : BState} {r : β × BState}
    (h : ((liftM x : BM α) >>= f) s = .ok r) : ∃ a, x = .ok a ∧ f a s = .ok r := by
  obtain ⟨a, s1, h1, h2⟩ := bindS_ok h
  obtain ⟨h3, h4⟩ := liftS_ok h1
  simp only at h3 h4
  exact ⟨a, h3, h4 ▸ h2⟩

/-- States that only grow the symbol table. -/
structure Ext (s s' : BState) : Prop where
  sym : ∃ more, s'.symMap = s.symMap ++ more
  num : s.numVars ≤ s'.numVars
  log : s'.log = s.log
  next : s'.nextLit = s.nextLit

theorem Ext.refl (s : BState) : Ext s s := ⟨⟨[], by simp⟩, le_refl _, rfl, rfl⟩
theorem Ext.trans {a b c : BState} (h : Ext a b) (k : Ext b c) : Ext a c := by
  obtain ⟨m, hm⟩ := h.sym
  obtain ⟨n, hn⟩ := k.sym
  exact ⟨⟨m ++ n, by rw [hn, hm, List.append_assoc]⟩, le_trans h.num k.num, k.log.trans h.log, k.next.trans h.next⟩

theorem Agree.mono {σ : Sym → Int} {τ : Var → Int} {s s' : BState} (h : Agree σ τ s') (e : Ext s s') : Agree σ τ s := by
  obtain ⟨m, hm⟩ := e.sym
  intro p hp
  exact h p (by rw [hm]; exact List.mem_append_left _ hp)

theorem lookup_mem {α β : Type} [DecidableEq α] {l : List (α × β)} {a : α} {b : β} (h : l.lookup a = some b) : (a, b) ∈ l := by
  induction l with
  | nil => cases h
  | cons p l ih =>
    obtain ⟨x, y⟩ := p
    rw [List.lookup_cons] at h
    by_cases hx : a = x
    · subst hx; simp at h; subst h; simp
    · have : (a == x) = false := by simp [hx]
      simp only [this] at h
      exact List.mem_cons_of_mem _ (ih h)

theorem lookup_none {α β : Type} [DecidableEq α] {l : List (α × β)} {a : α} (h : l.lookup a = none) :
    a ∉ l.map Prod.fst := by
  induction l with
  | nil => simp
  | cons p l ih =>
    obtain ⟨x, y⟩ := p
    rw [List.lookup_cons] at h
    by_cases hx : a = x
    · subst hx; simp at h
    · have : (a == x) = false := by simp [hx]
      simp only [this] at h
      have := ih h
      simp only [List.map_cons, List.mem_cons, not_or]
      exact ⟨hx, this⟩

theorem addVariable_spec {x : Sym} {s s' : BState} {v : Var} (hw : s.WF) (h : addVariable x s = .ok (v, s')) :
    s'.WF ∧ Ext s s' ∧ (x, v) ∈ s'.symMap := by
  unfold addVariable at h
  cases hl : s.symMap.lookup x with
  | some w =>
    rw [hl] at h
    simp only [Except.ok.injEq, Prod.mk.injEq] at h
    obtain ⟨rfl, rfl⟩ := h
    exact ⟨hw, Ext.refl _, lookup_mem hl⟩
  | none =>
    rw [hl] at h
    simp only [Except.ok.injEq, Prod.mk.injEq] at h
    obtain ⟨rfl, rfl⟩ := h
    refine ⟨⟨?_, ?_, ?_⟩, ⟨⟨[(x, s.numVars)], rfl⟩, Nat.le_succ _, rfl, rfl⟩, by simp⟩
    · simp only [List.map_append, List.map_cons, List.map_nil]
      rw [List.nodup_append]
      refine ⟨hw.keys, by simp, ?_⟩
      rintro a ha b hb rfl
      simp only [List.mem_singleton] at hb
      exact lookup_none hl (hb ▸ ha)
    · simp only [List.map_append, List.map_cons, List.map_nil]
      rw [List.nodup_append]
      refine ⟨hw.vals, by simp, ?_⟩
      rintro a ha b hb rfl
      simp only [List.mem_singleton] at hb
      obtain ⟨p, hp, rfl⟩ := List.mem_map.1 ha
      have := hw.bound p hp
      omega
    · intro p hp
      simp only [List.mem_append, List.mem_singleton] at hp
      rcases hp with hp | rfl
      · exact Nat.lt_succ_of_lt (hw.bound p hp)
      · exact Nat.lt_succ_self _

/-- Semantics `den` of variable parts fits the operations used by the parser. -/
structure LawfulOps {V : Type} (ops : TermOps V) (τ : Var → Int) (den : V → Int) : Prop where
  const : den ops.const = 1
  var : ∀ v, v < 4294967295 → den (ops.var v) = τ v
  mul : ∀ l r w, ops.mul l r = .ok w → den w = den l * den r

theorem lawful_lin (τ : Var → Int) : LawfulOps linOps τ (linDen τ) where
  const := by simp [linDen, linOps, INVALID_VAR]
  var v hv := by unfold linDen linOps; simp only [id]; rw [if_pos hv]
  mul l r w h := by
    simp only [linOps] at h
    cases hl : isValidVar l with
    | false =>
      simp only [hl] at h
      simp at h; subst h
      have := (isValidVar_false l).1 hl
      unfold linDen; rw [if_neg (by omega : ¬ l < 4294967295), one_mul]
    | true =>
      cases hr : isValidVar r with
      | false =>
        simp only [hl, hr] at h
        simp at h; subst h
        have := (isValidVar_false r).1 hr
        unfold linDen; rw [if_neg (by omega : ¬ r < 4294967295), mul_one]
      | true => simp [hl, hr] at h

theorem lawful_nonlin (τ : Var → Int) : LawfulOps nonlinOps τ (prodDen τ) where
  const := by simp [nonlinOps, prodDen]
  var v _ := by simp [nonlinOps, prodDen]
  mul l r w h := by
    simp only [nonlinOps, Except.ok.injEq] at h
    subst h; simp [prodDen]

section
variable {V : Type} {ops : TermOps V}

theorem invAll_spec {ts ts' : List (Int × V)} (h : invAll ts = .ok ts') :
    ts'.map Prod.snd = ts.map Prod.snd ∧ (∀ den : V → Int, wsum den ts' = -wsum den ts) ∧
    (∀ t ∈ ts', Limits.val.Fits t.1) := by
  induction ts generalizing ts' with
  | nil =>
    simp only [invAll, Except.ok.injEq] at h; subst h; simp
  | cons t ts ih =>
    obtain ⟨co, v⟩ := t
    simp only [invAll] at h
    obtain ⟨c, hc, h⟩ := bind_ok h
    obtain ⟨ts1, h1, h⟩ := bind_ok h
    have := pure_ok h; subst this
    obtain ⟨rfl, hf⟩ := safeInv_ok hc
    obtain ⟨i1, i2, i3⟩ := ih h1
    refine ⟨by simp [i1], fun den => by simp [i2 den]; ring, ?_⟩
    intro t ht
    rcases List.mem_cons.1 ht with rfl | ht
    · exact hf
    · exact i3 t ht

theorem invFrom_append {res more out : List (Int × V)} (h : invFrom res.length (res ++ more) = .ok out) :
    ∃ more', out = res ++ more' ∧ invAll more = .ok more' := by
  unfold invFrom at h
  obtain ⟨m, hm, h⟩ := bind_ok h
  have := pure_ok h; subst this
  simp at hm
  exact ⟨m, by simp, hm⟩

theorem mulRow_spec {lco : Int} {lv : V} {rs res out : List (Int × V)} (h : mulRow ops lco lv rs res = .ok out) :
    ∃ more, out = res ++ more ∧ (∀ t ∈ more, Limits.val.Fits t.1) ∧
      ∀ τ den, LawfulOps ops τ den → wsum den more = lco * den lv * wsum den rs := by
  induction rs generalizing res with
  | nil =>
    simp only [mulRow, Except.ok.injEq] at h; subst h
    exact ⟨[], by simp⟩
  | cons r rs ih =>
    obtain ⟨rco, rv⟩ := r
    simp only [mulRow] at h
    obtain ⟨c, hc, h⟩ := bind_ok h
    obtain ⟨v, hv, h⟩ := bind_ok h
    obtain ⟨rfl, hf⟩ := safeMul_ok hc
    obtain ⟨more, rfl, i2, i3⟩ := ih h
    refine ⟨(lco * rco, v) :: more, by simp, ?_, ?_⟩
    · intro t ht
      rcases List.mem_cons.1 ht with rfl | ht
      · exact hf
      · exact i2 t ht
    · intro τ den hl
      simp [i3 τ den hl, hl.mul _ _ _ hv]; ring

theorem mulAll_spec {ls rs res out : List (Int × V)} (h : mulAll ops ls rs res = .ok out) :
    ∃ more, out = res ++ more ∧ (∀ t ∈ more, Limits.val.Fits t.1) ∧
      ∀ τ den, LawfulOps ops τ den → wsum den more = wsum den ls * wsum den rs := by
  induction ls generalizing res with
  | nil =>
    simp only [mulAll, Except.ok.injEq] at h; subst h
    exact ⟨[], by simp⟩
  | cons l ls ih =>
    obtain ⟨lco, lv⟩ := l
    simp only [mulAll] at h
    obtain ⟨r1, h1, h⟩ := bind_ok h
    obtain ⟨m1, rfl, f1, e1⟩ := mulRow_spec h1
    obtain ⟨m2, rfl, f2, e2⟩ := ih h
    refine ⟨m1 ++ m2, by simp, ?_, ?_⟩
    · intro t ht
      rcases List.mem_append.1 ht with ht | ht
      · exact f1 t ht
      · exact f2 t ht
    · intro τ den hl
      simp [e1 τ den hl, e2 τ den hl]; ring

/-- Outcome of a parsing function that appends terms with the value `val` to `res`. -/
def Parses (ops : TermOps V) (fit : Prop) (val : (Sym → Int) → Option Int) (res res' : List (Int × V)) (s s' : BState) : Prop :=
  s'.WF ∧ Ext s s' ∧ ∃ more, res' = res ++ more ∧
    (s'.numVars ≤ 4294967295 → ∀ σ τ den, LawfulOps ops τ den → Agree σ τ s' → val σ = some (wsum den more)) ∧
    (fit → ∀ t ∈ more, Limits.val.Fits t.1)

variable {pow : Int → Int → Res Int} {lex : String → Option Sym} {powS : Int → Int → Option Int}
  (hlex : ∀ n s, evalName n = .ok s → lex n = some s)
  (hpow : ∀ x y z, pow x y = .ok z → powS x y = some z)
  (hpowF : ∀ x y z, pow x y = .ok z → Limits.val.Fits z)

theorem tmod_fits {a b : Int} (ha : Limits.val.Fits a) : Limits.val.Fits (a.tmod b) := by
  rw [val_fits] at *
  have h1 : (a.tmod b).natAbs ≤ a.natAbs := by rw [Int.natAbs_tmod]; exact Nat.mod_le _ _
  rcases le_or_gt 0 a with h | h
  · have := Int.tmod_nonneg b h
    omega
  · have h2 := Int.tmod_nonneg b (by omega : 0 ≤ -a)
    rw [Int.neg_tmod] at h2
    omega

include hpowF in
theorem evaluate_num_fits : ∀ {t : Term} {n : Int}, evaluate pow t = .ok (.num n) → numsFit t → Limits.val.Fits n := by
  suffices h : (∀ t, ∀ n, evaluate pow t = .ok (.num n) → numsFit t → Limits.val.Fits n) ∧
      (∀ ts : List Term, True) from fun {t n} => h.1 t n
  apply evaluate.mutual_induct (motive_1 := fun t => ∀ n, evaluate pow t = .ok (.num n) → numsFit t → Limits.val.Fits n)
    (motive_2 := fun ts => True)
  case case1 =>
    intro name n h _
    simp only [evaluate, evalName] at h
    split_ifs at h
    · obtain ⟨a, _, h⟩ := map_ok h
      cases h
    · cases h
  case case2 =>
    intro m n h hf
    simp only [evaluate, Except.ok.injEq, Sym.num.injEq] at h
    subst h
    rw [numsFit] at hf
    rw [val_fits]; omega
  case case7 =>
    intro a b _ _ _ _ iha ihb n h hf
    simp only [evaluate, String.reduceEq, if_true, if_false] at h
    obtain ⟨sa, ha, h⟩ := bind_ok h
    obtain ⟨x, hx, h⟩ := bind_ok h
    obtain ⟨sb, hb, h⟩ := bind_ok h
    obtain ⟨y, hy, h⟩ := bind_ok h
    obtain ⟨z, hz, h⟩ := bind_ok h
    have h := pure_ok h
    simp only [Sym.num.injEq] at h; subst h
    have := toNum_ok hx; subst this
    rw [(safeMod_ok hz).2]
    simp only [numsFit, numsFits] at hf
    exact tmod_fits (iha _ ha hf.1)
  case case11 =>
    intro a iha n h hf
    simp only [evaluate, if_true] at h
    obtain ⟨sa, ha, h⟩ := bind_ok h
    cases sa with
    | num m =>
      obtain ⟨z, hz, h⟩ := bind_ok h
      have h := pure_ok h
      simp only [Sym.num.injEq] at h; subst h
      have hz := safeInv_ok hz
      rw [hz.1]; exact hz.2
    | fn f args pos =>
      simp only at h
      split_ifs at h with hl
      cases (pure_ok h)
    | str x => cases h
  case case10 =>
    intro name a b h1 h2 h3 h4 h5 h6 h7 iha ihb n h hf
    simp only [evaluate, h1, h2, h3, h4, h5, h6, h7, if_false] at h
    obtain ⟨sa, ha, h⟩ := bind_ok h
    obtain ⟨sb, hb, h⟩ := bind_ok h
    cases (pure_ok h)
  case case12 =>
    intro name a h1 iha n h hf
    simp only [evaluate, h1, if_false] at h
    obtain ⟨sa, ha, h⟩ := bind_ok h
    cases (pure_ok h)
  case case13 =>
    intro name args h1 h2 ih n h hf
    rw [evaluate] at h
    · obtain ⟨sa, ha, h⟩ := bind_ok h
      cases (pure_ok h)
    all_goals first | exact h1 | exact h2
  case case14 =>
    intro args ih n h hf
    simp only [evaluate] at h
    obtain ⟨sa, ha, h⟩ := bind_ok h
    cases (pure_ok h)
  case case9 =>
    intro a b _ _ _ _ _ _ s h
    simp [evaluate] at h
  case case15 =>
    intro args n h hf
    simp [evaluate] at h
  case case16 => trivial
  case case17 => intros; trivial
  all_goals
    intros
    rename_i iha ihb n h hf
    simp only [evaluate, String.reduceEq, if_true, if_false] at h
    obtain ⟨sa, ha, h⟩ := bind_ok h
    obtain ⟨x, hx, h⟩ := bind_ok h
    obtain ⟨sb, hb, h⟩ := bind_ok h
    obtain ⟨y, hy, h⟩ := bind_ok h
    obtain ⟨z, hz, h⟩ := bind_ok h
    have h := pure_ok h
    simp only [Sym.num.injEq] at h; subst h
    first
      | (rw [(safeAdd_ok hz).1]; exact (safeAdd_ok hz).2)
      | (rw [(safeSub_ok hz).1]; exact (safeSub_ok hz).2)
      | (rw [(safeMul_ok hz).1]; exact (safeMul_ok hz).2)
      | (rw [(safeDiv_ok hz).2.1]; exact (safeDiv_ok hz).2.2)
      | exact hpowF _ _ _ hz

include hlex hpow in
theorem pushVar_spec {t : Term} {res res' : List (Int × V)} {s s' : BState} (hw : s.WF)
    (h : (do let v ← addVariable (← liftM (evaluate pow t)); return res ++ [(1, ops.var v)] : BM _) s
      = .ok (res', s')) :
    Parses ops True (fun σ => (ground lex powS t).map σ) res res' s s' := by
  obtain ⟨x, h1, h⟩ := liftBind_ok h
  obtain ⟨v, s2, h3, h⟩ := bindS_ok h
  have h := pureS_ok h
  simp only [Prod.mk.injEq] at h
  obtain ⟨rfl, rfl⟩ := h
  obtain ⟨w1, w2, w3⟩ := addVariable_spec hw h3
  refine ⟨w1, w2, [(1, ops.var v)], rfl, ?_, by simp [val_fits]⟩
  intro hn σ τ den hl ha
  rw [(evaluate_spec hlex hpow).1 _ _ h1]
  have hv := w1.bound _ w3
  have hv' : v < 4294967295 := lt_of_lt_of_le hv hn
  simp [hl.var v hv', ha _ w3]

include hlex hpow hpowF in
theorem pushValue_spec {t : Term} {res res' : List (Int × V)} {s s' : BState} (hw : s.WF)
    (h : pushValue pow ops t res s = .ok (res', s')) :
    Parses ops (numsFit t) (fun _ => (ground lex powS t).bind numOf) res res' s s' := by
  unfold pushValue at h
  obtain ⟨x, h1, h⟩ := liftBind_ok h
  obtain ⟨n, h3, h⟩ := liftBind_ok h
  have h := pureS_ok h
  simp only [Prod.mk.injEq] at h
  obtain ⟨rfl, rfl⟩ := h
  refine ⟨hw, Ext.refl _, [(n, ops.const)], rfl, ?_, ?_⟩
  rotate_left
  · intro hf t ht
    simp only [List.mem_singleton] at ht; subst ht
    have := toNum_ok h3; subst this
    exact evaluate_num_fits hpowF h1 hf
  intro hn σ τ den hl ha
  rw [(evaluate_spec hlex hpow).1 _ _ h1, toNum_ok h3]
  simp [numOf, hl.const]

omit hlex hpow hpowF in
theorem parses_mono {fit fit' : Prop} {val val' : (Sym → Int) → Option Int} {res res' : List (Int × V)} {s s' : BState}
    (h : Parses ops fit val res res' s s') (hf : fit' → fit) (hv : ∀ σ, val σ = val' σ) :
    Parses ops fit' val' res res' s s' := by
  obtain ⟨h1, h2, more, h3, h4, h5⟩ := h
  exact ⟨h1, h2, more, h3, fun hn σ τ den hl ha => hv σ ▸ h4 hn σ τ den hl ha, fun h => h5 (hf h)⟩

include hlex hpow hpowF in
theorem parseElem_spec (t : Term) : ∀ (res res' : List (Int × V)) (s s' : BState), s.WF →
    parseElem pow ops t res s = .ok (res', s') →
    Parses ops (numsFit t) (fun σ => value lex powS σ t) res res' s s' := by
  intro res
  induction t, res using parseElem.induct with
  | case1 n res =>
    intro res' s s' hw h
    simp only [parseElem] at h
    have h := pureS_ok h
    simp only [Prod.mk.injEq] at h
    obtain ⟨rfl, rfl⟩ := h
    refine ⟨hw, Ext.refl _, _, rfl, ?_, ?_⟩
    · intro _ σ τ den hl _
      simp [value, hl.const]
    · intro hf t ht
      simp only [List.mem_singleton] at ht; subst ht
      rw [numsFit] at hf
      rw [val_fits]; simp only; omega
  | case2 a b res iha ihb =>
    intro res' s s' hw h
    simp only [parseElem, if_true] at h
    obtain ⟨r1, s1, h1, h⟩ := bindS_ok h
    obtain ⟨w1, e1, m1, rfl, v1, f1⟩ := iha _ _ _ hw h1
    obtain ⟨w2, e2, m2, rfl, v2, f2⟩ := ihb _ _ _ _ w1 h
    refine ⟨w2, e1.trans e2, m1 ++ m2, by simp, ?_, ?_⟩
    · intro hn σ τ den hl ha
      have := v1 (le_trans e2.num hn) σ τ den hl (ha.mono e2)
      simp only at this
      simp [value, this, v2 hn σ τ den hl ha]
    · intro hf t ht
      simp only [numsFit, numsFits] at hf
      rcases List.mem_append.1 ht with ht | ht
      · exact f1 hf.1 t ht
      · exact f2 hf.2.1 t ht
  | case3 a b res _ iha ihb =>
    intro res' s s' hw h
    simp only [parseElem, String.reduceEq, if_true, if_false] at h
    obtain ⟨r1, s1, h1, h⟩ := bindS_ok h
    obtain ⟨r2, s2, h2, h⟩ := bindS_ok h
    obtain ⟨h3, h4⟩ := liftS_ok h
    simp only at h3 h4; subst h4
    obtain ⟨w1, e1, m1, rfl, v1, f1⟩ := iha _ _ _ hw h1
    obtain ⟨w2, e2, m2, rfl, v2, f2⟩ := ihb _ _ _ _ w1 h2
    obtain ⟨m3, rfl, h5⟩ := invFrom_append h3
    obtain ⟨-, i2, i3⟩ := invAll_spec h5
    refine ⟨w2, e1.trans e2, m1 ++ m3, by simp, ?_, ?_⟩
    · intro hn σ τ den hl ha
      have := v1 (le_trans e2.num hn) σ τ den hl (ha.mono e2)
      simp only at this
      have k := v2 hn σ τ den hl ha
      simp only at k
      simp [value, this, k, i2 den]; ring
    · intro hf t ht
      simp only [numsFit, numsFits] at hf
      rcases List.mem_append.1 ht with ht | ht
      · exact f1 hf.1 t ht
      · exact i3 t ht
  | case4 a b res _ _ iha ihb =>
    intro res' s s' hw h
    simp only [parseElem, String.reduceEq, if_true, if_false] at h
    obtain ⟨r1, s1, h1, h⟩ := bindS_ok h
    obtain ⟨r2, s2, h2, h⟩ := bindS_ok h
    obtain ⟨h3, h4⟩ := liftS_ok h
    simp only at h3 h4; subst h4
    obtain ⟨w1, e1, m1, rfl, v1, f1⟩ := iha _ _ _ hw h1
    obtain ⟨w2, e2, m2, rfl, v2, f2⟩ := ihb _ _ _ w1 h2
    obtain ⟨m3, rfl, i3, i2⟩ := mulAll_spec h3
    refine ⟨w2, e1.trans e2, m3, rfl, ?_, fun _ => i3⟩
    intro hn σ τ den hl ha
    have := v1 (le_trans e2.num hn) σ τ den hl (ha.mono e2)
    simp only at this
    have k := v2 hn σ τ den hl ha
    simp only at k
    simp [value, this, k, i2 τ den hl]
  | case5 name a b res h1 h2 h3 h4 =>
    intro res' s s' hw h
    simp only [parseElem, h1, h2, h3, if_false] at h
    rw [if_pos h4] at h
    refine parses_mono (pushValue_spec hlex hpow hpowF hw h) id ?_
    intro σ
    simp only [value, h1, h2, h3, if_false]
    rw [if_pos h4]; rfl
  | case6 name a b res h1 h2 h3 h4 =>
    intro res' s s' hw h
    simp only [parseElem, h1, h2, h3, if_false] at h
    rw [if_neg h4] at h
    refine parses_mono (pushVar_spec hlex hpow hw h) (by simp) ?_
    intro σ
    simp only [value, h1, h2, h3, if_false]
    rw [if_neg h4]
  | case7 a res iha =>
    intro res' s s' hw h
    simp only [parseElem, if_true] at h
    obtain ⟨r1, s1, h1, h⟩ := bindS_ok h
    obtain ⟨h3, h4⟩ := liftS_ok h
    simp only at h3 h4; subst h4
    obtain ⟨w1, e1, m1, rfl, v1, f1⟩ := iha _ _ _ hw h1
    obtain ⟨m3, rfl, h5⟩ := invFrom_append h3
    obtain ⟨-, i2, i3⟩ := invAll_spec h5
    refine ⟨w1, e1, m3, rfl, ?_, fun _ => i3⟩
    intro hn σ τ den hl ha
    have := v1 hn σ τ den hl ha
    simp only at this
    simp [value, this, i2 den]
  | case8 a res _ iha =>
    intro res' s s' hw h
    simp only [parseElem, String.reduceEq, if_true, if_false] at h
    refine parses_mono (iha _ _ _ hw h) (by simp only [numsFit, numsFits]; tauto) ?_
    intro σ
    simp [value]
  | case9 name a res h1 h2 =>
    intro res' s s' hw h
    simp only [parseElem, h1, h2, if_false] at h
    refine parses_mono (pushVar_spec hlex hpow hw h) (by simp) ?_
    intro σ
    simp [value, h1, h2]
  | case10 t res h1 h2 h3 =>
    intro res' s s' hw h
    rw [parseElem] at h
    · unfold parseVar at h
      cases t with
      | num n => exact absurd rfl (h1 n)
      | sym n =>
        refine parses_mono (pushVar_spec hlex hpow hw h) (by simp) ?_
        intro σ; simp [value]
      | fn f args =>
        refine parses_mono (pushVar_spec hlex hpow hw h) (by simp) ?_
        intro σ
        rw [value]
        all_goals simp_all
      | tuple args =>
        refine parses_mono (pushVar_spec hlex hpow hw h) (by simp) ?_
        intro σ; simp [value]
      | other args => cases h
    all_goals assumption

include hlex hpow hpowF in
theorem parseElems_spec (ts : List Term) : ∀ (res res' : List (Int × V)) (s s' : BState), s.WF →
    parseElems pow ops ts res s = .ok (res', s') →
    Parses ops (numsFits ts) (fun σ => sumValue lex powS σ ts) res res' s s' := by
  induction ts with
  | nil =>
    intro res res' s s' hw h
    have h := pureS_ok h
    simp only [Prod.mk.injEq] at h
    obtain ⟨rfl, rfl⟩ := h
    exact ⟨hw, Ext.refl _, [], by simp, fun _ σ τ den _ _ => by simp [sumValue], by simp⟩
  | cons t ts ih =>
    intro res res' s s' hw h
    simp only [parseElems] at h
    obtain ⟨r1, s1, h1, h⟩ := bindS_ok h
    obtain ⟨w1, e1, m1, rfl, v1, f1⟩ := parseElem_spec hlex hpow hpowF t _ _ _ _ hw h1
    obtain ⟨w2, e2, m2, rfl, v2, f2⟩ := ih _ _ _ _ w1 h
    refine ⟨w2, e1.trans e2, m1 ++ m2, by simp, ?_, ?_⟩
    · intro hn σ τ den hl ha
      have := v1 (le_trans e2.num hn) σ τ den hl (ha.mono e2)
      simp only at this
      have k := v2 hn σ τ den hl ha
      simp only at k
      simp [sumValue, this, k]
    · intro hf t ht
      simp only [numsFits] at hf
      rcases List.mem_append.1 ht with ht | ht
      · exact f1 hf.1 t ht
      · exact f2 hf.2 t ht

include hlex hpow hpowF in
theorem parseSum_spec {ts : List Term} {t : Term} {res' : List (Int × V)} {s s' : BState} (hw : s.WF)
    (h : parseSum pow ops ts (some t) s = .ok (res', s')) :
    Parses ops (numsFits ts ∧ numsFit t)
      (fun σ => do return (← sumValue lex powS σ ts) - (← value lex powS σ t)) [] res' s s' := by
  unfold parseSum at h
  obtain ⟨r1, s1, h1, h⟩ := bindS_ok h
  obtain ⟨r2, s2, h2, h⟩ := bindS_ok h
  obtain ⟨h3, h4⟩ := liftS_ok h
  simp only at h3 h4; subst h4
  obtain ⟨w1, e1, m1, rfl, v1, f1⟩ := parseElems_spec hlex hpow hpowF ts _ _ _ _ hw h1
  obtain ⟨w2, e2, m2, rfl, v2, f2⟩ := parseElem_spec hlex hpow hpowF t _ _ _ _ w1 h2
  obtain ⟨m3, rfl, h5⟩ := invFrom_append h3
  obtain ⟨-, i2, i3⟩ := invAll_spec h5
  refine ⟨w2, e1.trans e2, r1 ++ m3, by simp, ?_, ?_⟩
  · intro hn σ τ den hl ha
    have := v1 (le_trans e2.num hn) σ τ den hl (ha.mono e2)
    simp only at this
    have k := v2 hn σ τ den hl ha
    simp only at k
    simp [this, k, i2 den]; ring
  · intro hf t ht
    rcases List.mem_append.1 ht with ht | ht
    · exact f1 hf.1 t ht
    · exact i3 t ht

include hlex hpow hpowF in
theorem parseSum_none_spec {ts : List Term} {res' : List (Int × V)} {s s' : BState} (hw : s.WF)
    (h : parseSum pow ops ts none s = .ok (res', s')) :
    Parses ops (numsFits ts) (fun σ => sumValue lex powS σ ts) [] res' s s' := by
  unfold parseSum at h
  obtain ⟨r1, s1, h1, h⟩ := bindS_ok h
  have h := pureS_ok h
  simp only [Prod.mk.injEq] at h
  obtain ⟨rfl, rfl⟩ := h
  exact parseElems_spec hlex hpow hpowF ts _ _ _ _ hw h1

include hlex hpow hpowF in
theorem parseDiffArg_spec {co : Int} (hco : co = 1 ∨ co = -1) {t : Term} {res res' : List (Int × V)} {s s' : BState}
    (hw : s.WF) (h : parseDiffArg pow ops co t res s = .ok (res', s')) :
    Parses ops (numsFit t) (fun σ => (argValue lex powS σ t).map (co * ·)) res res' s s' := by
  unfold parseDiffArg at h
  obtain ⟨x, h1, h⟩ := liftBind_ok h
  have hg := (evaluate_spec hlex hpow).1 _ _ h1
  cases x with
  | num n =>
    simp only at h
    obtain ⟨m, h2, h⟩ := liftBind_ok h
    have h := pureS_ok h
    simp only [Prod.mk.injEq] at h
    obtain ⟨rfl, rfl⟩ := h
    refine ⟨hw, Ext.refl _, _, rfl, ?_, ?_⟩
    · intro hn σ τ den hl ha
      rcases hco with rfl | rfl
      · simp at h2; subst h2
        simp [argValue, hg, hl.const]
      · simp at h2
        simp [argValue, hg, hl.const, (safeInv_ok h2).1]
    · intro hf t ht
      simp only [List.mem_singleton] at ht; subst ht
      rcases hco with rfl | rfl
      · simp at h2; subst h2
        exact evaluate_num_fits hpowF h1 hf
      · simp at h2
        rw [(safeInv_ok h2).1]; exact (safeInv_ok h2).2
  | str x =>
    simp only at h
    obtain ⟨v, s2, h3, h⟩ := bindS_ok h
    have h := pureS_ok h
    simp only [Prod.mk.injEq] at h
    obtain ⟨rfl, rfl⟩ := h
    obtain ⟨w1, w2, w3⟩ := addVariable_spec hw h3
    refine ⟨w1, w2, _, rfl, ?_, by rcases hco with rfl | rfl <;> simp [val_fits]⟩
    intro hn σ τ den hl ha
    have hv' : v < 4294967295 := lt_of_lt_of_le (w1.bound _ w3) hn
    simp [argValue, hg, hl.var v hv', ha _ w3]
  | fn f args pos =>
    simp only at h
    obtain ⟨v, s2, h3, h⟩ := bindS_ok h
    have h := pureS_ok h
    simp only [Prod.mk.injEq] at h
    obtain ⟨rfl, rfl⟩ := h
    obtain ⟨w1, w2, w3⟩ := addVariable_spec hw h3
    refine ⟨w1, w2, _, rfl, ?_, by rcases hco with rfl | rfl <;> simp [val_fits]⟩
    intro hn σ τ den hl ha
    have hv' : v < 4294967295 := lt_of_lt_of_le (w1.bound _ w3) hn
    simp [argValue, hg, hl.var v hv', ha _ w3]

include hlex hpow hpowF in
theorem parseDiff_spec {ts : List Term} {t : Term} {res' : List (Int × V)} {s s' : BState} (hw : s.WF)
    (h : parseDiff pow ops ts t s = .ok (res', s')) :
    Parses ops (numsFits ts ∧ numsFit t)
      (fun σ => do return (← diffValue lex powS σ ts) - (← numOf (← ground lex powS t))) [] res' s s' := by
  unfold parseDiff at h
  match ts, h with
  | [], h => cases h
  | _ :: _ :: _, h => cases h
  | [u], h =>
    simp only at h
    obtain ⟨r1, s1, h1, h⟩ := bindS_ok h
    obtain ⟨x, h2, h⟩ := liftBind_ok h
    obtain ⟨n, h3, h⟩ := liftBind_ok h
    obtain ⟨m, h4, h⟩ := liftBind_ok h
    have h := pureS_ok h
    simp only [Prod.mk.injEq] at h
    obtain ⟨rfl, rfl⟩ := h
    have hg := (evaluate_spec hlex hpow).1 _ _ h2
    rw [toNum_ok h3] at hg
    obtain ⟨rfl, hfm⟩ := safeInv_ok h4
    unfold parseDiffElem at h1
    split at h1
    · rename_i name a b
      split_ifs at h1 with hname
      · subst hname
        obtain ⟨r2, s2, h5, h1⟩ := bindS_ok h1
        obtain ⟨w1, e1, m1, rfl, v1, f1⟩ := parseDiffArg_spec hlex hpow hpowF (Or.inl rfl) hw h5
        obtain ⟨w2, e2, m2, rfl, v2, f2⟩ := parseDiffArg_spec hlex hpow hpowF (Or.inr rfl) w1 h1
        refine ⟨w2, e1.trans e2, r2 ++ m2 ++ [(-n, ops.const)], by simp, ?_, ?_⟩
        · intro hn σ τ den hl ha
          have k1 := v1 (le_trans e2.num hn) σ τ den hl (ha.mono e2)
          have k2 := v2 hn σ τ den hl ha
          simp only [Option.map_eq_some_iff] at k1 k2
          obtain ⟨x1, k1, k3⟩ := k1
          obtain ⟨x2, k2, k4⟩ := k2
          simp [diffValue, k1, k2, hg, numOf, hl.const, ← k3, ← k4]; ring
        · intro hf t ht
          simp only [numsFits, numsFit] at hf
          simp only [List.mem_append, List.mem_singleton] at ht
          rcases ht with (ht | ht) | rfl
          · exact f1 hf.1.1.1 t ht
          · exact f2 hf.1.1.2.1 t ht
          · exact hfm
      · cases h1
    · cases h1
end

theorem unquoteAux_escape (cs : List Char) : unquoteAux false (escape cs) = .ok cs := by
  induction cs with
  | nil => rfl
  | cons c cs ih =>
    rw [escape]
    split_ifs with h1 h2 h3
    · subst h1; simp [unquoteAux, ih, Except.map]
    · subst h2; simp [unquoteAux, ih, Except.map]
    · subst h3; simp [unquoteAux, ih, Except.map]
    · simp [unquoteAux, h2, ih, Except.map]


theorem names_spec (n : String) (s : Sym) (h : evalName n = .ok s) : names n = some s := by
  rw [names, h]; rfl

theorem powers_spec {pow : Int → Int → Res Int} (x y z : Int) (h : pow x y = .ok z) : powers pow x y = some z := by
  rw [powers, h]; rfl

/-! ### Success of parsing -/

theorem bind_run {α β : Type} {x : BM α} {f : α → BM β} {s s' : BState} {a : α} (h : x s = .ok (a, s')) :
    (x >>= f) s = f a s' := by
  show Except.bind (x s) _ = _
  rw [h]; rfl

theorem lift_run {α : Type} {x : Res α} {a : α} (h : x = .ok a) (s : BState) : (liftM x : BM α) s = .ok (a, s) := by
  rw [h]; rfl

theorem invAll_success {V : Type} [DecidableEq V] {ts : List (Int × V)} (h : absSum ts ≤ 2147483647) :
    ∃ r, invAll ts = .ok r ∧ absSum r = absSum ts ∧ r.map Prod.snd = ts.map Prod.snd := by
  induction ts with
  | nil => exact ⟨[], rfl, rfl, rfl⟩
  | cons t ts ih =>
    rw [absSum_cons] at h
    have hp := absSum_nonneg ts
    have ht := abs_nonneg t.1
    obtain ⟨r, h1, h2, h3⟩ := ih (by omega)
    have hl : |t.1| ≤ 2147483647 := by omega
    rw [abs_le] at hl
    have h4 : safeInv .val t.1 = .ok (-t.1) := safeInv_fits val_two (by rw [val_fits]; omega) (by rw [val_fits]; omega)
    refine ⟨(-t.1, t.2) :: r, ?_, ?_, ?_⟩
    · simp only [invAll, h4, h1]; rfl
    · simp only [absSum_cons, abs_neg, h2]
    · simp [h3]

theorem fits_of_abs {x : Int} (h : |x| ≤ 2147483647) : Limits.val.Fits x := by
  rw [abs_le] at h; rw [val_fits]; omega

theorem mulRow_success {lco : Int} {lv : Nat} {rs res : List (Int × Nat)} (hl : |lco| ≤ 2147483647)
    (hr : absSum rs ≤ 2147483647) (h : |lco| * absSum rs ≤ 2147483647)
    (hv : lv = INVALID_VAR ∨ ∀ t ∈ rs, t.2 = INVALID_VAR) :
    ∃ more, mulRow linOps lco lv rs res = .ok (res ++ more) ∧ absSum more = |lco| * absSum rs ∧
      ((lv = INVALID_VAR ∧ ∀ t ∈ rs, t.2 = INVALID_VAR) → ∀ t ∈ more, t.2 = INVALID_VAR) := by
  induction rs generalizing res with
  | nil => exact ⟨[], by simp [mulRow], by simp [absSum], by simp⟩
  | cons r rs ih =>
    rw [absSum_cons] at h hr
    have hp := absSum_nonneg rs
    have ht := abs_nonneg r.1
    have hl0 := abs_nonneg lco
    rw [mul_add] at h
    have m1 := mul_nonneg hl0 ht
    have m2 := mul_nonneg hl0 hp
    obtain ⟨rco, rv⟩ := r
    have h1 : safeMul .val lco rco = .ok (lco * rco) := by
      refine safeMul_fits val_two (fits_of_abs hl) (fits_of_abs (by simp only at *; omega)) (fits_of_abs ?_)
      rw [abs_mul]; simp only at *; omega
    have h2 : ∃ v, linOps.mul lv rv = .ok v ∧ (lv = INVALID_VAR → v = rv) := by
      rcases hv with hv | hv
      · subst hv; exact ⟨rv, by simp [linOps, isValidVar], fun _ => rfl⟩
      · have := hv (rco, rv) List.mem_cons_self
        simp only at this
        subst this
        simp only [linOps]
        by_cases hh : isValidVar lv = true
        · refine ⟨lv, ?_, fun h => h⟩
          rw [if_neg (by simp [hh]), if_pos (by simp [isValidVar])]
        · refine ⟨INVALID_VAR, by simp [hh], fun h => rfl⟩
    obtain ⟨v, h2, h2'⟩ := h2
    obtain ⟨more, h3, h4, h5⟩ := ih (res := res ++ [(lco * rco, v)]) (by simp only at *; omega) (by omega)
      (hv.imp id (fun h t ht => h t (List.mem_cons_of_mem _ ht)))
    refine ⟨(lco * rco, v) :: more, ?_, ?_, ?_⟩
    · simp only [mulRow, h1, h2, bind, Except.bind, h3]; simp
    · rw [absSum_cons, absSum_cons, h4, mul_add, abs_mul]
    · rintro ⟨g1, g2⟩ t ht
      rcases List.mem_cons.1 ht with rfl | ht
      · simp only [h2' g1]; exact g2 _ List.mem_cons_self
      · exact h5 ⟨g1, fun t ht => g2 t (List.mem_cons_of_mem _ ht)⟩ t ht

theorem mulAll_success {ls rs res : List (Int × Nat)} (hl : absSum ls ≤ 2147483647)
    (hr : absSum rs ≤ 2147483647) (h : absSum ls * absSum rs ≤ 2147483647)
    (hv : (∀ t ∈ ls, t.2 = INVALID_VAR) ∨ ∀ t ∈ rs, t.2 = INVALID_VAR) :
    ∃ more, mulAll linOps ls rs res = .ok (res ++ more) ∧ absSum more = absSum ls * absSum rs ∧
      (((∀ t ∈ ls, t.2 = INVALID_VAR) ∧ ∀ t ∈ rs, t.2 = INVALID_VAR) → ∀ t ∈ more, t.2 = INVALID_VAR) := by
  induction ls generalizing res with
  | nil => exact ⟨[], by simp [mulAll], by simp [absSum], by simp⟩
  | cons l ls ih =>
    rw [absSum_cons] at h hl
    have hp := absSum_nonneg ls
    have ht := abs_nonneg l.1
    have hr0 := absSum_nonneg rs
    rw [add_mul] at h
    have m1 := mul_nonneg ht hr0
    have m2 := mul_nonneg hp hr0
    obtain ⟨more1, h1, h2, h2'⟩ := mulRow_success (lco := l.1) (lv := l.2) (rs := rs) (res := res) (by omega) hr (by omega)
      (hv.imp (fun h => h l List.mem_cons_self) id)
    obtain ⟨more2, h3, h4, h4'⟩ := ih (res := res ++ more1) (by omega) (by omega)
      (hv.imp (fun h t ht => h t (List.mem_cons_of_mem _ ht)) id)
    refine ⟨more1 ++ more2, ?_, ?_, ?_⟩
    · obtain ⟨lco, lv⟩ := l
      simp only [mulAll, h1, bind, Except.bind, h3]; simp
    · rw [absSum_cons, add_mul, ← h2, ← h4]; simp [absSum]
    · rintro ⟨g1, g2⟩ t ht
      rcases List.mem_append.1 ht with ht | ht
      · exact h2' ⟨g1 l List.mem_cons_self, g2⟩ t ht
      · exact h4' ⟨fun t ht => g1 t (List.mem_cons_of_mem _ ht), g2⟩ t ht

theorem magnitude_nonneg (t : Term) : 0 ≤ magnitude t := by
  induction t using hasVar.induct with
  | case1 n => simp [magnitude]
  | case2 f a b h1 h2 =>
    simp only [magnitude]
    split_ifs
    · exact mul_nonneg h1 h2
    · omega
  | case3 f a h => simpa [magnitude] using h
  | case4 t h1 h2 h3 => unfold magnitude; split <;> simp_all


theorem small_magnitude (t : Term) (h : smallTerm t) : magnitude t ≤ 2147483647 := by
  induction t using hasVar.induct with
  | case1 n => simpa [magnitude, smallTerm] using h
  | case2 f a b h1 h2 =>
    simp only [smallTerm] at h
    have := h.2.2
    norm_num at this
    exact this
  | case3 f a ih => simp only [smallTerm] at h; simp only [magnitude]; exact ih h
  | case4 t h1 h2 h3 => unfold magnitude; split <;> simp_all

theorem parseElem_success (pow : Int → Int → Res Int) (t : Term) : ∀ (res : List (Int × Nat)) (s : BState),
    linearTerm t → smallTerm t →
    ∃ more s', parseElem pow linOps t res s = .ok (res ++ more, s') ∧ absSum more ≤ magnitude t ∧
      (hasVar t = false → ∀ u ∈ more, u.2 = INVALID_VAR) := by
  intro res
  induction t, res using parseElem.induct with
  | case1 n res =>
    intro s _ _
    exact ⟨[(n, INVALID_VAR)], s, rfl, by simp [absSum, magnitude], by simp⟩
  | case2 a b res ih1 ih2 =>
    intro s hl hs
    simp only [linearTerm, smallTerm] at hl hs
    obtain ⟨m1, s1, p1, p2, p3⟩ := ih1 s hl.1 hs.1
    obtain ⟨m2, s2, q1, q2, q3⟩ := ih2 (res ++ m1) s1 hl.2.1 hs.2.1
    refine ⟨m1 ++ m2, s2, ?_, ?_, ?_⟩
    · rw [parseElem]
      simp only [if_true]
      rw [bind_run p1, q1, List.append_assoc]
    · have : absSum (m1 ++ m2) = absSum m1 + absSum m2 := by simp [absSum]
      rw [this]
      simp only [magnitude, String.reduceEq, if_false]
      omega
    · simp only [hasVar, Bool.or_eq_false_iff]
      rintro ⟨g1, g2⟩ u hu
      rcases List.mem_append.1 hu with hu | hu
      · exact p3 g1 u hu
      · exact q3 g2 u hu
  | case3 a b res _ ih1 ih2 =>
    intro s hl hs
    simp only [linearTerm, smallTerm] at hl hs
    obtain ⟨m1, s1, p1, p2, p3⟩ := ih1 s hl.1 hs.1
    obtain ⟨m2, s2, q1, q2, q3⟩ := ih2 (res ++ m1) s1 hl.2.1 hs.2.1
    have hb := small_magnitude b hs.2.1
    obtain ⟨r, r1, r2, r3⟩ := invAll_success (ts := m2) (by omega)
    refine ⟨m1 ++ r, s2, ?_, ?_, ?_⟩
    · rw [parseElem]
      simp only [String.reduceEq, if_true, if_false]
      rw [bind_run p1, bind_run q1]
      refine (lift_run (a := res ++ (m1 ++ r)) ?_ s2)
      unfold invFrom
      simp only [List.drop_left, List.take_left, r1]
      simp [bind, Except.bind, pure, Except.pure]
    · have : absSum (m1 ++ r) = absSum m1 + absSum r := by simp [absSum]
      rw [this]
      simp only [magnitude, String.reduceEq, if_false]
      omega
    · simp only [hasVar, Bool.or_eq_false_iff]
      rintro ⟨g1, g2⟩ u hu
      rcases List.mem_append.1 hu with hu | hu
      · exact p3 g1 u hu
      · have : u.2 ∈ m2.map Prod.snd := by rw [← r3]; exact List.mem_map.2 ⟨u, hu, rfl⟩
        obtain ⟨w, hw, he⟩ := List.mem_map.1 this
        rw [← he]; exact q3 g2 w hw
  | case4 a b res h1 h2 ih1 ih2 =>
    intro s hl hs
    simp only [linearTerm, smallTerm, String.reduceEq, false_or, true_and] at hl hs
    obtain ⟨m1, s1, p1, p2, p3⟩ := ih1 s hl.1 hs.1
    obtain ⟨m2, s2, q1, q2, q3⟩ := ih2 s1 hl.2.1 hs.2.1
    have ha := small_magnitude a hs.1
    have hb := small_magnitude b hs.2.1
    have hab := hs.2.2
    simp only [magnitude, if_true] at hab
    have a0 := absSum_nonneg m1
    have b0 := absSum_nonneg m2
    have hm : absSum m1 * absSum m2 ≤ magnitude a * magnitude b := by
      apply mul_le_mul p2 q2 b0; omega
    rw [List.nil_append] at p1 q1
    obtain ⟨more, k1, k2, k3⟩ := mulAll_success (ls := m1) (rs := m2) (res := res) (by omega) (by omega) (by omega)
      (hl.2.2.imp p3 q3)
    refine ⟨more, s2, ?_, ?_, ?_⟩
    · rw [parseElem]
      simp only [String.reduceEq, if_true, if_false]
      rw [bind_run p1, bind_run q1]
      exact lift_run k1 s2
    · simp only [magnitude, if_true]; omega
    · simp only [hasVar, Bool.or_eq_false_iff]
      rintro ⟨g1, g2⟩
      exact k3 ⟨p3 g1, q3 g2⟩
  | case5 name a b res h1 h2 h3 h4 =>
    intro s hl
    simp only [linearTerm] at hl
    exact absurd hl.2.2 (by simp [h1, h2, h3])
  | case6 name a b res h1 h2 h3 h4 =>
    intro s hl
    simp only [linearTerm] at hl
    exact absurd hl.2.2 (by simp [h1, h2, h3])
  | case7 a res ih =>
    intro s hl hs
    simp only [linearTerm, smallTerm] at hl hs
    obtain ⟨m1, s1, p1, p2, p3⟩ := ih s hl.1 hs
    have hb := small_magnitude a hs
    obtain ⟨r, r1, r2, r3⟩ := invAll_success (ts := m1) (by omega)
    refine ⟨r, s1, ?_, ?_, ?_⟩
    · rw [parseElem]
      simp only [String.reduceEq, if_true, if_false]
      rw [bind_run p1]
      refine (lift_run (a := res ++ r) ?_ s1)
      unfold invFrom
      simp only [List.drop_left, List.take_left, r1]
      simp [bind, Except.bind, pure, Except.pure]
    · simp only [magnitude]; omega
    · simp only [hasVar]
      intro g1 u hu
      have : u.2 ∈ m1.map Prod.snd := by rw [← r3]; exact List.mem_map.2 ⟨u, hu, rfl⟩
      obtain ⟨w, hw, he⟩ := List.mem_map.1 this
      rw [← he]; exact p3 g1 w hw
  | case8 a res _ ih =>
    intro s hl hs
    simp only [linearTerm, smallTerm] at hl hs
    obtain ⟨m1, s1, p1, p2, p3⟩ := ih s hl.1 hs
    refine ⟨m1, s1, ?_, ?_, ?_⟩
    · rw [parseElem]
      simp only [String.reduceEq, if_true, if_false]
      exact p1
    · simpa only [magnitude] using p2
    · simpa only [hasVar] using p3
  | case9 name a res h1 h2 =>
    intro s hl
    simp only [linearTerm] at hl
    exact absurd hl.2 (by simp [h1, h2])
  | case10 t res h1 h2 h3 =>
    intro s hl hs
    cases t with
    | num n => exact absurd rfl (h1 n)
    | sym name =>
      simp only [linearTerm] at hl
      have he : evaluate pow (.sym name) = .ok (.fn name [] true) := by
        rw [evaluate, evalName]
        rw [if_neg (by tauto)]
      rw [parseElem]
      simp only [parseVar]
      obtain ⟨v, s', hv⟩ : ∃ v s', addVariable (.fn name [] true) s = .ok (v, s') := by
        unfold addVariable
        cases s.symMap.lookup (Sym.fn name [] true) <;> exact ⟨_, _, rfl⟩
      refine ⟨[(1, v)], s', ?_, by simp [absSum, magnitude], by simp [hasVar]⟩
      rw [bind_run (lift_run he s), bind_run hv]
      rfl
      all_goals simp
    | fn name args =>
      match args, h2, h3, hl with
      | [], _, _, hl => simp [linearTerm] at hl
      | [a], h2, h3, hl => exact absurd rfl (h3 name a)
      | [a, b], h2, h3, hl => exact absurd rfl (h2 name a b)
      | _ :: _ :: _ :: _, _, _, hl => simp [linearTerm] at hl
    | tuple args => simp [linearTerm] at hl
    | other args => simp [linearTerm] at hl

end Clingcon
