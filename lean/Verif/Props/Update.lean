import Verif.Props.Safe

/-! Property C69: between solve calls exactly the order literals introduced during search are discarded. -/
namespace Clingcon.Props
open Clingcon Clingcon.Spec

variable {W W' : World}

theorem dropLit_exact {i : Nat} {u : Unit} {e : LitmapEntry} (hi : TI W) (he : W.litmap[i]? = some e) (hp : e.prev ≠ 0)
    (h : dropLit ((i + 1 : Nat) : Int) e W = .ok (u, W')) {v : Nat} {k m : Int} :
    OrdLit W' v k m ↔ OrdLit W v k m ∧ m.natAbs ≠ i + 1 := by
  have h0 := (hi.link i e he hp).1
  unfold dropLit at h
  simp only [smok] at h
  obtain ⟨vs, W1, ⟨g1, rfl⟩, vs', W2, ⟨g2, rfl⟩, _, W3, rfl, _, W4, ⟨ps, vs2, g3, rfl, rfl⟩, rfl⟩ := h
  have hd := unsetLiteral_eff (hi.wf _ _ g1) g2
  have hm := hi.mem i e he hp vs g1
  constructor
  · intro h
    have hw : OrdLit W2 v k m := by
      rcases ord_set (vs' := vs') (W := W2) rfl h with ⟨rfl, hq⟩ | ⟨hne, hq⟩
      · exact ⟨vs, g1, ((hd.mem _ _).mp hq).2⟩
      · exact hq
    refine ⟨hw, fun ea => ?_⟩
    obtain ⟨us, w1, w2⟩ := hw
    obtain ⟨e', k1, -, k3, k4, -⟩ := hi.own _ us k m w1 w2 (by omega)
    rw [show mapOffset m = i by unfold mapOffset; omega, he] at k1
    injection k1 with k1
    subst k1
    rcases ord_set (vs' := vs') (W := W2) rfl h with ⟨-, hq⟩ | ⟨hne, -⟩
    · exact ((hd.mem _ _).mp hq).1 k4.symm
    · exact hne k3.symm
  · rintro ⟨h, hne⟩
    by_cases hv : v = e.var
    · subst hv
      obtain ⟨us, w1, w2⟩ := h
      rw [g1] at w1; injection w1 with w1; subst w1
      refine ord_at (vs' := vs') (W := W2) rfl g1 ((hd.mem _ _).mpr ⟨fun ek => ?_, w2⟩)
      subst ek
      have := with_unique (hi.wf _ _ g1) w2 hm
      subst this
      apply hne
      unfold litAt
      split_ifs <;> omega
    · obtain ⟨us, w1, w2⟩ := h
      exact ⟨us, by dsimp only; rw [List.getElem?_set_ne (fun e => hv e.symm)]; exact w1, w2⟩

theorem updateStep_exact {m : Nat} : ∀ {n o : Nat} {W W' : World} {u : Unit}, TI W → updateStep m n o W = .ok (u, W') →
    ∀ v k l, OrdLit W' v k l ↔ OrdLit W v k l ∧ (l.natAbs = 1 ∨ l.natAbs ≤ m ∨ l.natAbs ≤ o ∨ o + n < l.natAbs)
  | 0, o, W, W', u, hi, h => by
    obtain ⟨-, rfl⟩ := pure_iff.mp h
    exact fun v k l => ⟨fun h => ⟨h, by omega⟩, fun h => h.1⟩
  | n + 1, o, W, W', u, hi, h => by
    unfold updateStep at h
    simp only [smok] at h
    obtain ⟨e, W1, ⟨rfl, rfl⟩, _, W2, h2, h3⟩ := h
    intro v k l
    rcases h2 with ⟨hc, h2⟩ | ⟨hc, rfl⟩
    · simp only [LitmapEntry.invalid, Bool.and_eq_true, decide_eq_true_eq] at hc
      have hp : (entryAt W1.litmap ((o + 1 : Nat) : Int)).prev ≠ 0 := by simpa using hc.1
      have he := entry_get hp
      have h0 := (hi.link _ _ he hp).1
      rw [updateStep_exact (hi.ti_dropLit he hp h2) h3, dropLit_exact hi he hp h2, and_assoc]
      refine and_congr_right fun _ => ⟨fun ⟨a, b⟩ => by omega, fun b => ⟨by omega, by omega⟩⟩
    · rw [updateStep_exact hi h3]
      refine and_congr_right_iff.mpr fun hl => ?_
      by_cases ho : l.natAbs = o + 1 ∧ l.natAbs ≠ 1
      · obtain ⟨vs, w1, w2⟩ := hl
        obtain ⟨e', k1, k2, k3, k4, -⟩ := hi.own _ vs k l w1 w2 ho.2
        have : entryAt W2.litmap ((o + 1 : Nat) : Int) = e' := by
          rw [entryAt, if_neg (by omega), List.getD_eq_getElem?_getD, show mapOffset ((o + 1 : Nat) : Int) = mapOffset l by unfold mapOffset; omega, k1]; rfl
        rw [this] at hc
        have : ¬ (o + 1 > m) := fun hg => by simp [LitmapEntry.invalid, k2, hg] at hc
        constructor <;> intro _ <;> omega
      · constructor <;> intro _ <;> omega

/-- C69: after `update`, the order literals are exactly those before the call that are facts or whose atoms are static (at most
`m`). Bounds and constraints stay as they are, and the bound on the objective is removed. -/
theorem C69_update {n : Int} {ops : List Op} {m : Nat} {r : Bool} (hn : 1 < n) (h : Run ops (World.init n) W) (hu : (Op.update m).exec W = .ok (r, W')) :
    (∀ v k l, OrdLit W' v k l ↔ OrdLit W v k l ∧ (l.natAbs = 1 ∨ l.natAbs ≤ m)) ∧
    (∀ v : Nat, (W'.vars[v]?).map (fun vs => (vs.lower, vs.upper)) = (W.vars[v]?).map (fun vs => (vs.lower, vs.upper))) ∧
    W'.book = { W.book with minimizeBound := none, minimizeLevel := 0 } := by
  have hi := TI.run h (TI.init hn)
  obtain ⟨_, W1, h1, h2⟩ := SM.bind_ok hu
  obtain ⟨-, rfl⟩ := pure_iff.mp h2
  unfold solverUpdate at h1
  obtain ⟨_, W2, h3, h4⟩ := SM.bind_ok h1
  obtain rfl := modify_iff.mp h3
  obtain ⟨W3, W4, h5, h6⟩ := SM.bind_ok h4
  obtain ⟨rfl, rfl⟩ := get_iff.mp h5
  have fr := fr_updateStep.fr _ _ _ h6
  refine ⟨fun v k l => ?_, fun v => ?_, congrArg Prod.snd fr⟩
  · refine (updateStep_exact (W := { W with book.minimizeBound := none, book.minimizeLevel := 0 }) (hi.other rfl rfl rfl) h6 v k l).trans ?_
    rw [ord_vars (W := W) (W' := { W with book.minimizeBound := none, book.minimizeLevel := 0 }) rfl]
    refine and_congr_right_iff.mpr fun hl => ?_
    constructor
    · rintro (a | a | a | a)
      · exact Or.inl a
      · exact Or.inr a
      · have : l ≠ 0 := fun e => by
          subst e
          obtain ⟨vs, w1, w2⟩ := hl
          obtain ⟨e', k1, k2, -⟩ := hi.own _ vs k 0 w1 w2 (by decide)
          have := (hi.link _ _ k1 k2).1
          simp [mapOffset] at this
        omega
      · by_contra hc
        obtain ⟨vs, w1, w2⟩ := hl
        obtain ⟨e', k1, -⟩ := hi.own _ vs k l w1 w2 (by omega)
        have := (List.getElem?_eq_some_iff.mp k1).1
        unfold mapOffset at this
        dsimp only at a
        omega
    · rintro (a | a)
      · exact Or.inl a
      · exact Or.inr (Or.inl a)
  · have e1 : W'.vars.map VarState.bounds = W.vars.map VarState.bounds := congrArg Prod.fst fr
    have e2 := congrArg (fun l => l[v]?.map (fun vs : VarState => (vs.lower, vs.upper))) e1
    simpa [List.getElem?_map, Option.map_map, Function.comp_def, VarState.bounds] using e2

/-- Search introduces a literal on level 1, which is left. -/
def stepOps : List Op := safeOps ++ [.undo]
def stepWorld : World := (tryRun stepOps (World.init 5)).getD (World.init 5)

def tableOf (W : World) : List (List (Int × Int)) := W.vars.map VarState.with

/-- The literal for `y ≤ 4` has been introduced during search; it is discarded and the ones for `x ≤ 3` and `y ≤ 5` are kept. -/
example : Run stepOps (World.init 5) stepWorld ∧ tableOf stepWorld = [[(3, 2)], [(4, -5), (5, 3)]] ∧
    (Op.update 4).preB stepWorld = true ∧ ((Op.update 4).exec stepWorld).toOption.map (fun p => tableOf p.2) = some [[(3, 2)], [(5, 3)]] :=
  ⟨tryRun_getD (by decide +kernel), by decide +kernel, by decide +kernel, by decide +kernel⟩
end Clingcon.Props
