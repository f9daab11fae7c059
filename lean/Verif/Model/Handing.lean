import Verif.Model.ConBuilder
import Verif.Model.Program

/-! The calls of the parser made one after the other. -/
namespace Clingcon

/-- The calls of the constraint builder made by `parse` (parsing.cc:895-938, propagator.cc:343-346): they are made in order, and the first one
that is rejected ends parsing. In the code, a call is made as soon as the parser has determined it, and the parser and the constraint builder
take fresh literals from the same counter (`InitClauseCreator::add_literal`). Here, the calls of a program are determined first, so that the literals
introduced by the constraint builder come after all those introduced by the parser. -/
def bEvents (env : PEnv) : List Event → PM Bool
  | [] => return true
  | e :: es => pAnd (bEvent env e) (bEvents env es)

end Clingcon
