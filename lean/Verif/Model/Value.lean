import Verif.Model.Check

/-! Reporting of values. -/
namespace Clingcon

/-- solver.cc:429 and propagator.cc:582 `get_value`; there is no value for variables that do not exist (the code would access the vector out
of bounds). -/
def World.getValue (W : World) (v : Nat) : Option Int := W.vars[v]?.map (·.lower)

/-- propagator.cc:276-282: the symbols added by `on_model` for the shown variables; pairs of the name and the value stand for the terms
`__csp(name, value)`. The list contains the names in the order of iteration together with the variables. -/
def World.modelSymbols (W : World) (names : List (String × Nat)) : List (String × Int) :=
  names.filterMap (fun n => (W.getValue n.2).map (n.1, ·))

end Clingcon
