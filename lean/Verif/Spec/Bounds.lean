import Verif.Model.Run

/-! Bounds of variables and of linear terms, stated for states of the solver. -/
namespace Clingcon.Spec
open Clingcon

/-- The current bounds of all variables. -/
def boundsOf (W : World) : List (Int × Int) := W.vars.map (fun x => (x.lower, x.upper))

/-- The current bounds of a variable (0 if there is no such variable). -/
def lowerOf (W : World) (v : Nat) : Int := (boundsOf W)[v]?.elim 0 Prod.fst
def upperOf (W : World) (v : Nat) : Int := (boundsOf W)[v]?.elim 0 Prod.snd

/-- The least and greatest value of a linear term if variables are between the bounds. -/
def leastSum (lo up : Nat → Int) : List (Int × Nat) → Int
  | [] => 0
  | (co, v) :: es => (if co > 0 then co * lo v else co * up v) + leastSum lo up es

def greatestSum (lo up : Nat → Int) : List (Int × Nat) → Int
  | [] => 0
  | (co, v) :: es => (if co > 0 then co * up v else co * lo v) + greatestSum lo up es

/-- A sequence of calls such that all states, including the first and the last one, have a property. -/
inductive RunIn (P : World → Prop) : List Op → World → World → Prop
  | nil {W} : P W → RunIn P [] W W
  | cons {op ops W W1 W2 r} : P W → op.pre W → op.exec W = .ok (r, W1) → RunIn P ops W1 W2 → RunIn P (op :: ops) W W2

end Clingcon.Spec
