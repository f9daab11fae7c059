import Verif.Spec.Answers
import Verif.Proof.Inactive
import Verif.Proof.Handed

/-! Constraints that have been added stay. -/
set_option linter.unusedVariables false
namespace Clingcon
open Spec VarState

variable {W W' : World}

theorem acon_keep {α : Type} {x : SM α} {a : α} (hk : ∀ K, Keep (SameA K) x) (hx : x W = .ok (a, W')) (h : IA W.book) :
    W'.book.cs.map acon = W.book.cs.map acon := ((hk _).keep _ _ _ hx h.sameA).1

theorem acon_addConstraint {c : Constr} {n : Nat} (h : addConstraint c W = .ok (n, W')) : W'.book.cs.map acon = W.book.cs.map acon ++ [(true, c)] := by
  unfold addConstraint at h
  obtain ⟨st, W1, h1, h2⟩ := SM.bind_ok h
  obtain ⟨rfl, hcon, hal, -, htd, -⟩ := initState_eff h1
  obtain ⟨W2, W3, h3, h4⟩ := SM.bind_ok h2
  obtain ⟨rfl, rfl⟩ := get_iff.mp h3
  dsimp only at h4
  obtain ⟨_, W4, h5, h6⟩ := SM.bind_ok h4
  rw [modify_iff] at h5
  subst h5
  obtain ⟨_, W5, h7, h8⟩ := SM.bind_ok h6
  obtain ⟨e1, -, -, e4⟩ := addVarWatches_eff h7
  obtain ⟨_, W6, h9, h10⟩ := SM.bind_ok h8
  rw [modify_iff] at h9
  obtain ⟨-, rfl⟩ := pure_iff.mp h10
  subst h9
  have : ∀ k, (aview (W5.book.markTodo k)).1 = (aview W5.book).1 := fun k => by rw [markTodo_aview]
  refine (this _).trans ?_
  show W5.book.cs.map acon = _
  rw [e1]
  simp [acon, hcon, hal]

theorem acon_step {op : Op} {r : Bool} (hn : (∀ n, op ≠ .removeConstraint n) ∧ ∀ r, op ≠ .removeConstraints r) (h : op.exec W = .ok (r, W')) (hq : IA W.book) :
    ∃ add, W'.book.cs.map acon = W.book.cs.map acon ++ add ∧ (∀ c, op = .addConstraint c → (true, c) ∈ add) ∧ (∀ x ∈ add, x.1 = true) ∧ ((∀ c, op ≠ .addConstraint c) → add = []) := by
  have keep : W'.book.cs.map acon = W.book.cs.map acon → (∀ c, op ≠ .addConstraint c) →
      ∃ add, W'.book.cs.map acon = W.book.cs.map acon ++ add ∧ (∀ c, op = .addConstraint c → (true, c) ∈ add) ∧ (∀ x ∈ add, x.1 = true) ∧ ((∀ c, op ≠ .addConstraint c) → add = []) :=
    fun e hc => ⟨[], by rw [e, List.append_nil], fun c e => absurd e (hc c), (fun x hx => by cases hx), fun _ => rfl⟩
  cases op with
  | addVar lo hi' =>
    obtain ⟨_, W1, h1, h2⟩ := SM.bind_ok h
    obtain ⟨-, rfl⟩ := pure_iff.mp h2
    obtain ⟨v, h3⟩ := discard_iff.mp h1
    injection h3 with h3
    obtain ⟨-, rfl⟩ := Prod.mk.inj h3
    exact keep rfl (fun c e => by cases e)
  | addConstraint c =>
    obtain ⟨_, W1, h1, h2⟩ := SM.bind_ok h
    obtain ⟨-, rfl⟩ := pure_iff.mp h2
    obtain ⟨v, h3⟩ := discard_iff.mp h1
    refine ⟨_, acon_addConstraint h3, fun c' e => ?_, fun x hx => ?_, fun hc => absurd rfl (hc c)⟩
    · cases e
      simp
    · rw [List.mem_singleton.mp hx]
  | removeConstraint n => exact absurd rfl (hn.1 n)
  | removeConstraints rem => exact absurd rfl (hn.2 rem)
  | updateMinimize n l b =>
    refine keep (acon_keep (fun K => Keep.bind (keepA_modify (fun W => ?_)) (fun _ => Keep.fr Fr.pure)) h hq) (fun c e => by cases e)
    unfold Book.updateMinimize
    split_ifs
    · exact markTodo_aview (b := { W.book with minimizeBound := some b, minimizeLevel := l })
    · exact markTodo_aview (b := { W.book with minimizeLevel := l })
    · rfl
  | enable => exact keep (by rw [(enable_iff.mp h).2]) (fun c e => by cases e)
  | fresh => exact keep (acon_keep (fun K => Keep.fr fr_fresh) h hq) (fun c e => by cases e)
  | post e => exact keep (acon_keep (fun K => Keep.fr fr_post) h hq) (fun c e => by cases e)
  | literal cc v x => exact keep (acon_keep (fun K => Keep.bind (Keep.discard (Keep.fr fr_getLiteral)) (fun _ => Keep.fr Fr.pure)) h hq) (fun c e => by cases e)
  | updLiteral cc v x t => exact keep (acon_keep (fun K => Keep.bind (Keep.discard (Keep.fr fr_updateLiteral)) (fun _ => Keep.fr Fr.pure)) h hq) (fun c e => by cases e)
  | simple cc l co v r s => exact keep (acon_keep (fun K => Keep.fr fr_addSimple) h hq) (fun c e => by cases e)
  | dom cc l v d => exact keep (acon_keep (fun K => Keep.fr fr_addDom) h hq) (fun c e => by cases e)
  | propagate cc ls => exact keep (acon_keep (fun K => a_solverPropagate) h hq) (fun c e => by cases e)
  | check cc b n => exact keep (acon_keep (fun K => a_solverCheck) h hq) (fun c e => by cases e)
  | simplify cc t b n =>
    refine keep (acon_keep (x := solverSimplify cc t b n) (fun K => ?_) h hq) (fun c e => by cases e)
    unfold solverSimplify
    exact a_factLoop
  | undo => exact keep (acon_keep (fun K => Keep.bind a_solverUndo (fun _ => Keep.fr Fr.pure)) h hq) (fun c e => by cases e)
  | decide cc l => exact keep (acon_keep (fun K => Keep.bind (Keep.discard (Keep.fr fr_solverDecide)) (fun _ => Keep.fr Fr.pure)) h hq) (fun c e => by cases e)
  | checkFull cc b => exact keep (acon_keep (fun K => Keep.bind keepA_solverCheckFull (fun _ => Keep.fr Fr.pure)) h hq) (fun c e => by cases e)
  | updateBounds cc o b n =>
    refine keep (acon_keep (x := updateBounds cc o b n) (fun K => ?_) h hq) (fun c e => by cases e)
    unfold Clingcon.updateBounds
    refine Keep.bind (Keep.fr fr_takeBounds) (fun b => ?_)
    split
    · exact Keep.fr Fr.pure
    · exact a_solverCheck
  | update n =>
    refine keep (acon_keep (fun K => Keep.bind ?_ (fun _ => Keep.fr Fr.pure)) h hq) (fun c e => by cases e)
    unfold solverUpdate
    exact Keep.bind (keepA_modify (fun _ => rfl)) (fun _ => Keep.bind (Keep.fr Fr.get) (fun W => Keep.fr fr_updateStep))

/-- A constraint that has been added and is not removed exists in the end. -/
theorem added_stays {β : Nat → Bool} {ops : List Op} {ts ts' : List Told} (h : OkFed β ops W ts W' ts') : NoRemoval ops → IA W.book →
    (∃ add, W'.book.cs.map acon = W.book.cs.map acon ++ add) ∧ ∀ c, Op.addConstraint c ∈ ops → ∃ (n : Nat) (k : CState), W'.book.cs[n]? = some k ∧ k.alive = true ∧ k.con = c := by
  induction h with
  | nil => exact fun _ _ => ⟨⟨[], by simp⟩, fun c hc => by cases hc⟩
  | @cons op ops W W1 W2 ts ts2 r hp hf he ho hx hrest ih =>
    intro hn hq
    obtain ⟨add, e1, e2, -⟩ := acon_step (hn op List.mem_cons_self) hx hq
    obtain ⟨⟨add', e3⟩, i2⟩ := ih (fun o ho => hn o (List.mem_cons_of_mem _ ho)) (ia_step (fun n e => absurd e ((hn op List.mem_cons_self).1 n)) hx hq)
    refine ⟨⟨add ++ add', by rw [e3, e1, List.append_assoc]⟩, fun c hc => ?_⟩
    rcases List.mem_cons.1 hc with hc | hc
    · have hm : (true, c) ∈ W2.book.cs.map acon := by
        rw [e3, e1]
        exact List.mem_append_left _ (List.mem_append_right _ (e2 c hc.symm))
      obtain ⟨k, hk, ek⟩ := List.mem_map.1 hm
      obtain ⟨n, hk⟩ := List.getElem?_of_mem hk
      obtain ⟨a, b⟩ := Prod.mk.inj ek
      exact ⟨n, k, hk, a, b⟩
    · exact i2 c hc

theorem holdsAll_mem {β : Nat → Bool} {σ : Nat → Int} : ∀ {ops : List Op} {n : Nat}, holdsAll β σ n ops → ∀ op ∈ ops, ∃ m, holdsOp β σ m op
  | [], _, _, op, hm => by cases hm
  | o :: ops, n, h, op, hm => by
    rcases List.mem_cons.1 hm with rfl | hm
    · exact ⟨n, h.1⟩
    · exact holdsAll_mem h.2 op hm

theorem conHolds_bound {n : Int} {c : Constr} (h : properCon n c) (σ : Nat → Int) (b b' : Option Int) : conHolds σ b c ↔ conHolds σ b' c := by
  cases c with
  | minimize a es => exact h.elim
  | _ => rfl

theorem admits_of {n : Int} {c : Constr} {β : Nat → Bool} {σ : Nat → Int} {b : Option Int} (h : properCon n c) (hh : litTrue β c.lit → conHolds σ none c)
    (hnl : ∀ l ca x y cb z rhs, c = .nonlinear l ca x y cb z rhs → conHolds σ none c ∧ 0 ≤ cb) : admits β σ b c := by
  cases c with
  | minimize a es => exact h.elim
  | sum l r es => exact ⟨h.1.1, h.2.2, hh⟩
  | distinct l es => exact ⟨h.1.1, hh⟩
  | disjoint l es => exact ⟨h.1.1, fun e he => h.2 e he, hh⟩
  | nonlinear l ca x y cb z r => exact hnl _ _ _ _ _ _ _ rfl

theorem postFed_admFed {new : List PEv} {β : Nat → Bool} {σ : Nat → Int} {ops : List Op} {ts ts' : List Told} {n : Int} (hw : ∀ e ∈ new, properP n e)
    (hh : ∀ e ∈ new, pholds β σ e) (h : PostFed new β σ ops W ts W' ts') : AdmFed β σ ops W ts W' ts' := by
  induction h with
  | nil => exact .nil _ _
  | @cons op ops W W1 W2 ts ts2 r hp hf he ho hx hrest ih =>
    refine .cons hp hf he ?_ hx ih
    cases op with
    | simple cc l co v r s => exact ⟨ho.1, (hw _ ho.2).2, hh _ ho.2⟩
    | dom cc l v d => exact ⟨ho.1, (hw _ ho.2).1.1, (hw _ ho.2).2, hh _ ho.2⟩
    | addConstraint c => exact admits_of (hw _ ho.1) (hh _ ho.1) ho.2
    | _ => exact ho

end Clingcon
