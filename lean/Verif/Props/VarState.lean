import Verif.Proof.VarState

/-! C19: the table of order literals of a variable. -/
namespace Clingcon.Props
open Spec

/-- C19. Starting from a new variable (solver.hh:181-184) with any bounds, any sequence of permitted
requests — lookups, insertions, removals, traversals and nearest neighbour searches, changes of bounds and
of the stack of bounds, in any order — is answered like a partial function from values to literals does,
and no access is outside of the array. The switch between the two representations is not observable. -/
theorem C19_table (lower upper : Int) (ops : List TabOp) :
    TabRunOK { lower := lower, upper := upper } (fun _ => none) ops :=
  tab_run ops ⟨⟨List.Pairwise.nil, by simp⟩, by simp [VarState.with]⟩

/-- The representation is switched on the second insertion, and the answers are given by the array. -/
example : ∃ vs1 vs2 : VarState, ({ lower := 0, upper := 5 } : VarState).setLiteral 3 7 = .ok vs1 ∧
    vs1.table = .map [(3, 7)] ∧ vs1.setLiteral 1 (-4) = .ok vs2 ∧ vs2.table = .vec 0 [0, -4, 0, 7, 0] ∧
    vs2.litSucc 1 = 7 ∧ vs2.litPrev 1 = -1 := by
  refine ⟨⟨0, 5, [], [], .map [(3, 7)]⟩, ⟨0, 5, [], [], .vec 0 [0, -4, 0, 7, 0]⟩, ?_, rfl, ?_, rfl, ?_, ?_⟩ <;> decide

/-- The requests of this run are permitted. -/
example : TabPre { lower := 0, upper := 5 } (fun _ => none) (.set 3 7) ∧
    TabPre ⟨0, 5, [], [], .map [(3, 7)]⟩ (tabNext (fun _ => none) (.set 3 7)) (.set 1 (-4)) := by
  simp [TabPre, VarState.minBound, VarState.maxBound]

end Clingcon.Props
