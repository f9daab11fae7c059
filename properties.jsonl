{"id": "C01", "title": "Floor division is mathematical floor", "statement": "For every dividend n and every divisor m other than 0, floordiv(n, m) is the greatest integer q with q*m <= n (m > 0) or q*m >= n (m < 0), i.e. the floor of the rational n/m.", "quantifier": "all integers n and all non-zero integers m", "why_tests_cant": "The domain is all pairs of 32/64/128-bit integers; sign and remainder combinations at the boundaries cannot be enumerated.", "anchors": ["libclingcon/clingcon/util.hh:floordiv"]}
{"id": "C02", "title": "Ceiling division is mathematical ceiling", "statement": "For every dividend n and every divisor m other than 0, ceildiv(n, m) is the least integer q not below the rational n/m.", "quantifier": "all integers n and all non-zero integers m", "why_tests_cant": "Same unbounded domain as floor division; the function has no test at all.", "anchors": ["libclingcon/clingcon/util.hh:ceildiv"]}
{"id": "C03", "title": "Checked arithmetic is exact or refuses", "statement": "The checked operations add, sub, mul, div, mod and negation of a fixed-width signed type return the exact mathematical result exactly when it is representable and otherwise raise; in neither case is a hardware operation evaluated that overflows or divides by zero.", "quantifier": "every bit width, every pair of representable operands", "why_tests_cant": "2^64 operand pairs per width (2^128 for the wider types) and each guard has a boundary.", "anchors": ["libclingcon/clingcon/util.hh:safe_add", "libclingcon/clingcon/util.hh:safe_sub", "libclingcon/clingcon/util.hh:safe_mul", "libclingcon/clingcon/util.hh:safe_div", "libclingcon/clingcon/util.hh:safe_mod", "libclingcon/clingcon/util.hh:safe_inv"]}
{"id": "C04", "title": "Domain splitting point makes progress", "statement": "For two 32-bit bounds a < b the computed midpoint m satisfies a <= m < b although the difference is computed in wrapping unsigned arithmetic, so both x <= m and x > m leave a strictly smaller non-empty domain.", "quantifier": "all pairs of signed 32-bit integers a < b", "why_tests_cant": "2^63 pairs, and wrap-around only happens for wide domains.", "anchors": ["libclingcon/clingcon/util.hh:midpoint", "libclingcon/src/solver.cc:Solver::check_full"]}
{"id": "C05", "title": "Interval set is the union of the added intervals", "statement": "After any sequence of add calls with non-empty intervals, an integer is a member exactly if some added interval contained it, the stored intervals are sorted, non-empty and pairwise non-adjacent, and the membership, containment and intersection queries answer exactly according to that set.", "quantifier": "all finite sequences of intervals and all query points or intervals", "why_tests_cant": "Insertion may merge arbitrarily many neighbours; every ordering of overlapping, nested and adjacent intervals is a different path.", "anchors": ["libclingcon/clingcon/util.hh:IntervalSet::add", "libclingcon/clingcon/util.hh:IntervalSet::contains", "libclingcon/clingcon/util.hh:IntervalSet::intersects"]}
{"id": "C06", "title": "Simplification of linear sums preserves value", "statement": "Simplifying a list of coefficient/variable pairs (with constants given as pairs with the invalid variable) either raises, or returns a list and a right-hand side such that for every assignment the original sum equals the new sum minus the right-hand side; the new list mentions each variable at most once, in order of first occurrence, has no zero coefficient if dropping was requested, and all coefficients and the right-hand side are in the valid value range.", "quantifier": "all term lists and all assignments of integers to variables", "why_tests_cant": "Lists are unbounded, the in-place rewriting depends on the multiplicity pattern of the variables.", "anchors": ["libclingcon/src/parsing.cc:simplify(CoVarVec)"]}
{"id": "C07", "title": "Parsed linear terms denote their arithmetic value", "statement": "Parsing a ground theory term built from numbers, unary and binary plus and minus, multiplication and variable symbols into a list of coefficient/variable pairs either raises or yields a list whose value under every assignment is the arithmetic value of the term, and every coefficient is representable.", "quantifier": "all ground theory terms of arbitrary nesting and all assignments", "why_tests_cant": "Terms nest arbitrarily; the sign of a whole sub-list is rewritten in place.", "anchors": ["libclingcon/src/parsing.cc:parse_constraint_elem"]}
{"id": "C08", "title": "Relations are normalised without changing meaning", "statement": "For each of the relations <=, >=, <, >, =, != the set of clauses and <= constraints given to the builder for a literal and a sum constrains the literal to imply the relation (head atoms) or to be equivalent to it (body atoms), for every assignment; auxiliary literals can always be chosen consistently and are uniquely determined.", "quantifier": "all literals, sums, right-hand sides, both atom kinds, all assignments and all truth assignments", "why_tests_cant": "Infinite domains of sums and assignments; interplay of auxiliary literals, facts and recursion between relations.", "anchors": ["libclingcon/src/parsing.cc:normalize_constraint"]}
{"id": "C09", "title": "Whole linear constraint atoms mean what they say", "statement": "For every &sum/&diff theory atom that is accepted, the constraints posted (after moving the guard term to the left, simplification and division by the greatest common divisor) are satisfied by an assignment exactly if the relation between the sum of the element terms and the guard term holds (equivalence for body atoms, implication from the literal for head atoms).", "quantifier": "all element term lists, guard terms, relations, assignments", "why_tests_cant": "Composition of unbounded term parsing, simplification and gcd reduction.", "anchors": ["libclingcon/src/parsing.cc:parse_constraint", "libclingcon/src/parsing.cc:parse_constraint_elems", "libclingcon/src/parsing.cc:simplify(CoVarVec)", "libclingcon/src/parsing.cc:normalize_constraint"]}
{"id": "C10", "title": "Accepted nonlinear constraints keep all their terms", "statement": "Every accepted &nsum atom with one product of two variables and at most one linear term, in any order of the elements, posts a constraint that holds for an assignment exactly if the written relation holds, and atoms of any other shape are rejected.", "quantifier": "all lists of constant, linear and product terms and all assignments", "why_tests_cant": "Order and multiplicity of terms are unbounded; the tests use one fixed order.", "anchors": ["libclingcon/src/parsing.cc:ConstraintBuilder add_constraint(NonlinearTermVec)", "libclingcon/src/parsing.cc:simplify(NonlinearTermVec)"]}
{"id": "C11", "title": "Body &nsum atoms are equivalent to their relation", "statement": "When a nonlinear constraint is added strictly, the two posted constraints force the literal to be true exactly if the relation holds; in particular an assignment satisfying the relation is compatible with the literal being true.", "quantifier": "all literals, coefficients, variables, right-hand sides and assignments", "why_tests_cant": "No test uses &nsum in a rule body; ranges over all assignments.", "anchors": ["libclingcon/src/propagator.cc:ConstraintBuilder::add_nonlinear"]}
{"id": "C12", "title": "Shifting constraints from integrity constraints preserves satisfaction", "statement": "Rewriting an integrity constraint with a linear theory atom in the body into a rule whose head is that atom with the (possibly negated) relation yields a rule satisfied by exactly the same interpretations, for any order, number and sign of the body literals; other statements are unchanged.", "quantifier": "all rule bodies, signs, relations and interpretations", "why_tests_cant": "Bodies are unbounded lists; relation and sign interact.", "anchors": ["libclingcon/src/parsing.cc:shift_rule", "libclingcon/src/parsing.cc:negate_relation"]}
{"id": "C13", "title": "Multiset semantics of theory elements", "statement": "After rewriting, two ground instances of elements of an atom that stem from different elements, or from different substitutions for the named variables of an element, have different tuples, so that the set semantics of theory elements never merges them.", "quantifier": "all element lists, conditions and all pairs of ground substitutions", "why_tests_cant": "Quantifies over all substitutions.", "anchors": ["libclingcon/src/parsing.cc:TheoryRewriter::rewrite_tuple", "libclingcon/src/parsing.cc:tag_terms"]}
{"id": "C14", "title": "String unquoting inverts quoting", "statement": "For every string, escaping it in the way clingo prints strings (backslash, newline, quote) and unquoting gives back the string.", "quantifier": "all finite strings", "why_tests_cant": "Strings are unbounded; sequences of escapes interact.", "anchors": ["libclingcon/src/parsing.cc:unquote"]}
{"id": "C15", "title": "Single variable constraints", "statement": "Adding co*x <= rhs for a literal (one element) produces clauses and order literals under which the literal implies (non-strict) or is equivalent to (strict) the inequality, for both signs of the coefficient and for every position of the bound relative to the domain, including bounds outside of the domain.", "quantifier": "all coefficients, bounds, domains, literals and assignments", "why_tests_cant": "Boundary of floor division times boundary of the domain for each sign and truth value.", "anchors": ["libclingcon/src/solver.cc:Solver::add_simple"]}
{"id": "C16", "title": "Domain constraints", "statement": "Adding a domain given by a non-empty set of intervals for a literal restricts the variable to exactly that set whenever the literal is true and not at all when it is false; an empty domain makes the literal false.", "quantifier": "all interval sets, literals, variable bounds and assignments", "why_tests_cant": "Arbitrary number of holes; clause pairs must interlock exactly.", "anchors": ["libclingcon/src/solver.cc:Solver::add_dom", "libclingcon/src/propagator.cc:ConstraintBuilder::add_dom", "libclingcon/src/parsing.cc:parse_dom"]}
{"id": "C17", "title": "Order clauses are valid", "statement": "Every clause that bound propagation adds when order literals become true or false, for any state and any sequence of events, is satisfied by every integer assignment when each order literal is read as 'variable <= value'.", "quantifier": "all solver states, event sequences, assignments", "why_tests_cant": "Depends on the history of created literals and truth values.", "anchors": ["libclingcon/src/solver.cc:Solver::propagate_", "libclingcon/src/solver.cc:Solver::propagate_variables_", "libclingcon/src/solver.cc:Solver::update_upper_", "libclingcon/src/solver.cc:Solver::update_lower_", "libclingcon/src/solver.cc:Solver::update_domain_"]}
{"id": "C18", "title": "Neighbour links of order literals stay correct", "statement": "After any sequence of creating, replacing and removing order literals, the recorded predecessor and successor literal of each order literal is the literal of the nearest smaller and larger value of the same variable that has one.", "quantifier": "all finite histories of literal creation and removal over any number of variables", "why_tests_cant": "A linked structure maintained incrementally; histories are unbounded.", "anchors": ["libclingcon/src/solver.cc:Solver::update_litmap_", "libclingcon/src/solver.cc:Solver::litmap_add_", "libclingcon/src/solver.cc:Solver::get_literal", "libclingcon/src/solver.cc:Solver::update"]}
{"id": "C19", "title": "Representation switch of order literals is transparent", "statement": "A variable's table of order literals answers lookups and nearest-neighbour searches like a finite map from values to literals, independent of when it is switched from a tree to an array, and every array access is inside of the array as long as values stay between the bounds at the time of the switch.", "quantifier": "all sequences of insertions, removals and queries", "why_tests_cant": "The switch depends on the fill factor and may happen at any insertion.", "anchors": ["libclingcon/clingcon/solver.hh:VarState::get_or_add_literal", "libclingcon/clingcon/solver.hh:VarState::mogrify_", "libclingcon/clingcon/solver.hh:VarState::lit_gt", "libclingcon/clingcon/solver.hh:VarState::lit_lt"]}
{"id": "C20", "title": "Backtracking restores bounds", "statement": "For every sequence of opening levels, tightening bounds and undoing levels, undoing a level restores for every variable exactly the lower and upper bound it had when the level was opened.", "quantifier": "all histories of bound changes and levels", "why_tests_cant": "Histories are unbounded and the trail only stores the first change per level.", "anchors": ["libclingcon/src/solver.cc:Level::undo", "libclingcon/src/solver.cc:Level::update_lower", "libclingcon/src/solver.cc:Level::update_upper", "libclingcon/clingcon/solver.hh:VarState::push_lower", "libclingcon/clingcon/solver.hh:VarState::pop_lower"]}
{"id": "C21", "title": "Incremental sums equal recomputed sums", "statement": "For every sequence of bound changes, deliveries of pending changes, deactivation of constraints and backtracking, the incrementally maintained lower and upper bound of an active linear constraint equal the sums recomputed from the variable bounds.", "quantifier": "all interleavings of propagation, deactivation and undo", "why_tests_cant": "State depends on the complete history, including lazily removed watches.", "anchors": ["libclingcon/src/solver.cc:Solver::Level::update_constraints_", "libclingcon/src/solver.cc:Level::undo", "libclingcon/src/constraints.cc:SumConstraintStateImpl::update", "libclingcon/src/constraints.cc:SumConstraintStateImpl::undo"]}
{"id": "C22", "title": "Linear propagation loses no solution", "statement": "Every clause added while propagating a linear constraint is satisfied by every assignment that respects the meaning of the order literals and satisfies the constraint whenever its literal is true, for every configuration of reason refinement and literal introduction.", "quantifier": "all constraints, bounds, partial truth assignments, configurations, assignments", "why_tests_cant": "The clause depends on slack redistribution over arbitrarily many variables.", "anchors": ["libclingcon/src/constraints.cc:SumConstraintStateImpl::propagate", "libclingcon/src/constraints.cc:SumConstraintStateImpl::calculate_reason_"]}
{"id": "C23", "title": "Linear propagation detects violation", "statement": "If the literal is not false and the lower bound of the sum exceeds the right-hand side, propagation adds a clause over literals that are all false except possibly the negated constraint literal; a constraint is only declared inactive if it is satisfied by all assignments within the bounds or is conflicting. If the literal is true, then Solver::check reports a conflict to a solver that rejects clauses whose literals are all false.", "quantifier": "all constraints and bounds", "why_tests_cant": "Unbounded number of elements.", "anchors": ["libclingcon/src/constraints.cc:SumConstraintStateImpl::propagate"]}
{"id": "C24", "title": "Accepted models satisfy all constraints", "statement": "If the final check of a total assignment succeeds without introducing a literal, then all variables are fixed and every constraint whose literal is true and which is not permitted to be inactive holds for the reported values; for inactive constraints the reported values satisfy them whenever the bookkeeping invariant holds.", "quantifier": "all constraint sets and all total assignments", "why_tests_cant": "Ranges over all reachable total assignments.", "anchors": ["libclingcon/src/solver.cc:Solver::check_full", "libclingcon/src/constraints.cc:SumConstraintStateImpl::check_full", "libclingcon/src/constraints.cc:DistinctConstraintState::check_full", "libclingcon/src/constraints.cc:DisjointConstraintState::check_full", "libclingcon/src/constraints.cc:NonlinearConstraintState::check_full"]}
{"id": "C25", "title": "Weight constraint translation is equivalent", "statement": "The pseudo-Boolean constraint generated for a linear constraint holds for an assignment (read through order literals) exactly if the linear constraint holds, for every sign pattern and every cut-off of the order literals.", "quantifier": "all linear constraints, domains and assignments", "why_tests_cant": "Infinite family; truncation of the unary encoding must be exact.", "anchors": ["libclingcon/src/constraints.cc:SumConstraintState::weight_translate_"]}
{"id": "C26", "title": "Clause translation is equivalent", "statement": "The set of clauses generated for a linear constraint is satisfied by an assignment (read through order literals) together with a truth value of the constraint literal exactly if the literal is false or the constraint holds.", "quantifier": "all linear constraints, domains and assignments", "why_tests_cant": "Recursive enumeration of bound combinations of unbounded depth.", "anchors": ["libclingcon/src/constraints.cc:SumConstraintState::clause_translate_"]}
{"id": "C27", "title": "Clause limit is respected", "statement": "If the estimate admits a translation with a given maximum, the number of clauses produced by the translation is below this maximum.", "quantifier": "all linear constraints, domains and limits", "why_tests_cant": "The estimate and the translation are two separate traversals of an exponentially large tree.", "anchors": ["libclingcon/src/constraints.cc:SumConstraintState::clause_estimate_", "libclingcon/src/constraints.cc:SumConstraintState::clause_translate_"]}
{"id": "C28", "title": "Translated objective equals the objective", "statement": "The weighted literals emitted when the objective is translated sum up, for every assignment, to the value of the objective including its constant part.", "quantifier": "all objectives, domains, assignments", "why_tests_cant": "Infinite domain.", "anchors": ["libclingcon/src/constraints.cc:MinimizeConstraintState::translate"]}
{"id": "C29", "title": "Optimisation bound protocol", "statement": "For every order in which threads report models, the shared bound is always one less than the least cost among the models that improved it, never increases within a solve step, recorded costs strictly decrease, and the cost statistic is the least cost reported so far.", "quantifier": "all finite interleavings of reports and bound integrations by any number of threads", "why_tests_cant": "Schedules cannot be enumerated.", "anchors": ["libclingcon/src/propagator.cc:Propagator::on_model", "libclingcon/src/propagator.cc:Propagator::update_minimize", "libclingcon/src/propagator.cc:Propagator::check", "libclingcon/src/solver.cc:Solver::update_minimize"]}
{"id": "C30", "title": "Objective is stable over solve steps", "statement": "When a program is extended in a multi-shot setting without adding to the objective, the cost assigned to every assignment stays the same in each step.", "quantifier": "all objectives and any number of steps", "why_tests_cant": "Only visible from the second step on and with a constant in the objective.", "anchors": ["libclingcon/src/propagator.cc:ConstraintBuilder::prepare_minimize", "libclingcon/src/propagator.cc:Propagator::remove_minimize", "libclingcon/src/propagator.cc:Propagator::get_minimize_value"]}
{"id": "C31", "title": "Distinct propagation loses no solution", "statement": "Every clause added while propagating a distinct constraint is satisfied by all assignments that respect the meaning of order literals and give pairwise different values to the elements whenever the constraint literal is true.", "quantifier": "all element lists, bounds, truth assignments and assignments", "why_tests_cant": "Arbitrary linear elements sharing variables.", "anchors": ["libclingcon/src/constraints.cc:DistinctConstraintState::propagate_", "libclingcon/src/constraints.cc:DistinctConstraintState::propagate_assigned_"]}
{"id": "C32", "title": "Distinct detects violation", "statement": "Whenever the literal of a distinct constraint is true and two of its elements are fixed to the same value, propagation adds a conflicting clause, no matter when the elements were fixed.", "quantifier": "all element lists and all histories of fixing variables", "why_tests_cant": "Depends on which elements are queued, which depends on history.", "anchors": ["libclingcon/src/constraints.cc:DistinctConstraintState::propagate", "libclingcon/src/constraints.cc:DistinctConstraintState::attach", "libclingcon/src/constraints.cc:DistinctConstraintState::mark_todo_"]}
{"id": "C33", "title": "Distinct translation is equivalent", "statement": "The at-most-one constraints generated for a distinct constraint whose elements have at most one variable each hold exactly if the elements are pairwise different whenever the literal is true.", "quantifier": "all element lists, domains, assignments", "why_tests_cant": "Domains with gaps from coefficients and overlapping values are unbounded.", "anchors": ["libclingcon/src/constraints.cc:DistinctConstraintState::translate", "libclingcon/src/constraints.cc:DistinctConstraintState::domain_"]}
{"id": "C34", "title": "Pairwise distinct encoding is equivalent", "statement": "The pairwise encoding of a distinct constraint (used for small constraints and facts) is satisfiable by a choice of auxiliary literals exactly if the elements are pairwise different whenever the literal is true.", "quantifier": "all element lists and assignments", "why_tests_cant": "All assignments and element lists with shared variables.", "anchors": ["libclingcon/src/propagator.cc:ConstraintBuilder::add_distinct"]}
{"id": "C35", "title": "Disjoint propagation loses no solution", "statement": "Every clause added while propagating a disjoint constraint is satisfied by all assignments that respect the meaning of order literals and place the intervals without overlap whenever the literal is true.", "quantifier": "all sets of intervals with positive lengths, bounds, assignments", "why_tests_cant": "Hall intervals over arbitrarily many tasks and all orders.", "anchors": ["libclingcon/src/constraints.cc:DisjointConstraintState::Algorithm"]}
{"id": "C36", "title": "Pairwise disjoint encoding is equivalent", "statement": "The encoding of a disjoint constraint by precedence literals is satisfiable by a choice of auxiliary literals exactly if the intervals are pairwise disjoint whenever the literal is true.", "quantifier": "all interval lists and assignments", "why_tests_cant": "All assignments, lists with repeated variables.", "anchors": ["libclingcon/src/propagator.cc:ConstraintBuilder::translate_disjoint_", "libclingcon/src/propagator.cc:ConstraintBuilder::add_disjoint"]}
{"id": "C37", "title": "Nonlinear propagation loses no solution", "statement": "Every clause added while propagating a nonlinear constraint is satisfied by all assignments that respect the meaning of order literals and satisfy the constraint whenever its literal is true.", "quantifier": "all nonlinear constraints, bounds, truth assignments and assignments", "why_tests_cant": "Sign cases of products and conditional constraints; tests use facts with coefficient one.", "anchors": ["libclingcon/src/constraints.cc:NonlinearConstraintState::propagate"]}
{"id": "C38", "title": "Translation removes exactly the translated constraints", "statement": "After the translation phase the remaining constraints are exactly the original and newly added ones that were not reported as removable, irrespective of position.", "quantifier": "all lists of constraints and all translation outcomes", "why_tests_cant": "In-place partition with growing list; any outcome pattern.", "anchors": ["libclingcon/src/solver.cc:Solver::translate"]}
{"id": "C39", "title": "Committed weight constraints have the intended direction", "statement": "The 'sum at most bound' constraint collected by the clause creator and committed as a negated 'sum at least' constraint with mirrored direction has the intended meaning for implication and equivalence.", "quantifier": "all literals, weights, bounds, directions, truth assignments", "why_tests_cant": "Infinite domain.", "anchors": ["libclingcon/clingcon/base.hh:InitClauseCreator::add_weight_constraint", "libclingcon/clingcon/base.hh:InitClauseCreator::commit"]}
{"id": "C40", "title": "Variables and symbols correspond one to one", "statement": "For any sequence of variable registrations, looking up a symbol's index and taking the symbol of that index are mutually inverse, indices are never reused or changed, and auxiliary variables never obtain a symbol.", "quantifier": "all histories of registrations", "why_tests_cant": "Unbounded histories.", "anchors": ["libclingcon/src/propagator.cc:Propagator::add_variable", "libclingcon/src/propagator.cc:Propagator::get_index", "libclingcon/src/propagator.cc:Propagator::get_symbol", "libclingcon/src/clingcon.cc:clingcon_lookup_symbol"]}
{"id": "C41", "title": "Assignment iteration is complete and valid", "statement": "Iterating over the assignment visits each variable that has a symbol exactly once in increasing order and terminates, and each visited index has a symbol and value.", "quantifier": "all variable tables, including ones with gaps from auxiliary variables", "why_tests_cant": "Gaps only occur after multi-shot translations.", "anchors": ["libclingcon/src/clingcon.cc:clingcon_assignment_begin", "libclingcon/src/clingcon.cc:clingcon_assignment_next", "libclingcon/src/clingcon.cc:clingcon_assignment_has_value"]}
{"id": "C42", "title": "Shown variables", "statement": "A variable is part of the output exactly if there is no show statement at all, or its symbol was listed, or its name and arity was listed.", "quantifier": "all histories of show statements and all symbols", "why_tests_cant": "Unbounded histories.", "anchors": ["libclingcon/src/propagator.cc:Propagator::shown", "libclingcon/src/parsing.cc:parse_show"]}
{"id": "C43", "title": "Thread specific options override defaults independent of order", "statement": "After option validation the setting of each thread is the thread-specific one if given and otherwise the default one, independent of the order in which the options were parsed, and repeating an option is rejected.", "quantifier": "all option sequences and thread numbers", "why_tests_cant": "All permutations of options and numbers of threads.", "anchors": ["libclingcon/src/clingcon.cc:set_value", "libclingcon/src/clingcon.cc:clingcon_validate_options", "libclingcon/clingcon/base.hh:Config::solver_config"]}
{"id": "C44", "title": "Direct configuration is last-writer-wins per thread", "statement": "Using the configure function, the effective setting of a thread is the last one that addressed this thread or all threads, although thread configurations are created lazily.", "quantifier": "all sequences of configure calls and thread queries", "why_tests_cant": "Lazy creation depends on the order of calls.", "anchors": ["libclingcon/src/clingcon.cc:set_value", "libclingcon/src/clingcon.cc:clingcon_configure", "libclingcon/clingcon/base.hh:Config::solver_config"]}
{"id": "C45", "title": "Numeric options respect their range", "statement": "A parsed numeric option value is accepted exactly if it denotes an integer in the allowed range or one of the keywords min and max, and then equals it; anything else is rejected; a lower default bound above the upper one is rejected.", "quantifier": "all option strings", "why_tests_cant": "All strings.", "anchors": ["libclingcon/src/clingcon.cc:parse_range_num", "libclingcon/src/clingcon.cc:parse_bool", "libclingcon/src/clingcon.cc:clingcon_validate_options"]}
{"id": "C46", "title": "Statistics accumulate", "statement": "After any number of steps, each accumulated statistic of each thread is the sum of the step values, and the cost is the last one.", "quantifier": "all histories of steps and all thread numbers", "why_tests_cant": "Unbounded histories.", "anchors": ["libclingcon/clingcon/base.hh:Statistics::accu", "libclingcon/src/propagator.cc:Propagator::on_statistics"]}
{"id": "C47", "title": "Threads start from equal state", "statement": "Copying the solver state to another thread gives it the same bounds, order literals, constraints, watches, queues and counters, and pending work.", "quantifier": "all master states", "why_tests_cant": "All states.", "anchors": ["libclingcon/src/solver.cc:Solver::copy_state"]}
{"id": "C48", "title": "No overflow in sums", "statement": "For every linear constraint accepted by simplification and all variable bounds in the valid range, each intermediate value in computing bounds and slack fits the 64-bit sum type.", "quantifier": "all accepted constraints and all bounds", "why_tests_cant": "The extreme cases are a vanishing fraction of the input space.", "anchors": ["libclingcon/src/parsing.cc:simplify(CoVarVec)", "libclingcon/src/constraints.cc:SumConstraintStateImpl::propagate"]}
{"id": "C49", "title": "Final check terminates by splitting", "statement": "If some variable is not fixed at the final check, a literal is created whose value splits the domain properly, and after finitely many splits along any branch all variables are fixed.", "quantifier": "all domains and all branch choices", "why_tests_cant": "Any sequence of branch choices.", "anchors": ["libclingcon/src/solver.cc:Solver::check_full"]}
{"id": "C50", "title": "Value reporting", "statement": "For a total assignment, the value reported for a variable is within its bounds, satisfies all true order literals of the variable and falsifies none.", "quantifier": "all states satisfying the bound invariant", "why_tests_cant": "Relates all order literals to bounds.", "anchors": ["libclingcon/src/solver.cc:Solver::get_value", "libclingcon/src/solver.cc:Solver::propagate_", "libclingcon/src/propagator.cc:Propagator::on_model"]}
{"id": "C51", "title": "Registering theories is independent", "statement": "Whether a registered theory takes part in decisions depends only on its own heuristic setting, not on theories registered earlier in the same process.", "quantifier": "all sequences of registrations", "why_tests_cant": "Needs several theories with different settings in one process.", "anchors": ["libclingcon/src/clingcon.cc:clingcon_register"]}
{"id": "C52", "title": "Disjoint check detects overlap", "statement": "The final check of a disjoint constraint accepts a total assignment exactly if the intervals are pairwise disjoint.", "quantifier": "all interval lists and assignments", "why_tests_cant": "Any number of intervals in any order.", "anchors": ["libclingcon/src/constraints.cc:DisjointConstraintState::check_full", "libclingcon/clingcon/util.hh:IntervalSet::intersects"]}
{"id": "C53", "title": "A whole program is translated faithfully", "statement": "For every accepted list of theory atoms (&sum, &diff, &nsum, &distinct, &disjoint, &dom, &minimize, &maximize, &show in any order), a truth assignment to the program's literals and an assignment of integers to the symbols satisfies all theory atoms exactly if the truth assignment can be extended, in a unique way, to the auxiliary literals such that everything handed to the propagator is satisfied; the parser only reports a conflict if no such truth assignment exists. Symbols and variables correspond one to one.", "quantifier": "all programs, truth assignments, integer assignments and behaviours of the clause sink", "why_tests_cant": "Programs are unbounded; an early conflict, shared symbols and auxiliary literals of one atom interact with all later atoms.", "anchors": ["libclingcon/src/parsing.cc:parse", "libclingcon/src/parsing.cc:parse_distinct", "libclingcon/src/parsing.cc:parse_disjoint", "libclingcon/src/parsing.cc:parse_dom", "libclingcon/src/propagator.cc:Propagator::add_variable"]}
{"id": "C54", "title": "The objective is the sum of all objective statements", "statement": "For every accepted program and assignment, the value of the objective function handed to the propagator is the sum of the values of the terms in &minimize statements minus the sum of the values of the terms in &maximize statements.", "quantifier": "all programs and assignments", "why_tests_cant": "Any number of statements and terms in any order.", "anchors": ["libclingcon/src/parsing.cc:parse_objective", "libclingcon/src/parsing.cc:parse"]}
{"id": "C55", "title": "Show statements are handed over completely", "statement": "For every accepted program, each &show statement restricts the output and each of its elements, in order, adds exactly the signature name/arity or the variable of the symbol; no other statement affects what is shown, numbers and malformed signatures are rejected.", "quantifier": "all programs", "why_tests_cant": "Any number of statements and elements in any order.", "anchors": ["libclingcon/src/parsing.cc:parse_show", "libclingcon/src/parsing.cc:parse_show_elem", "libclingcon/src/parsing.cc:parse"]}
{"id": "C56", "title": "Linear propagation reaches bound consistency", "statement": "After a linear constraint with a true literal was propagated without conflict, every assignment within the bounds that satisfies what has been posted and agrees with the Boolean assignment gives each variable of the constraint a value that is supported, that is, a value for which the constraint can be met if the other variables take the bounds making the sum least.", "quantifier": "all constraints, bounds, Boolean assignments, configurations and assignments", "why_tests_cant": "A missed bound does not change the set of answers, so tests comparing answers do not notice it.", "anchors": ["libclingcon/src/constraints.cc:SumConstraintStateImpl::propagate"]}
{"id": "C57", "title": "Nothing that is derived over a session excludes a solution", "statement": "Over any sequence of calls of the solver (adding variables, domains, constraints and objective bounds, introducing order literals, decisions, propagation, checks, simplification, undoing, exchanging bounds, and removing literals between solve calls), every clause posted, every pending fact, and every bound on the top level is consistent with every assignment that satisfies the constraints, domains and objective bounds added.", "quantifier": "all sequences of calls, all states of the Boolean solver, all assignments", "why_tests_cant": "Wrong derivations depend on the interleaving of decisions, propagation and undoing, and removing one solution among many is rarely noticed.", "anchors": ["libclingcon/src/solver.cc:Solver", "libclingcon/src/constraints.cc", "libclingcon/src/propagator.cc:Propagator"]}
{"id": "C58", "title": "The queue of constraints never refers to removed constraints", "statement": "After any sequence of adding, queueing, propagating and removing constraints (individually or all marked ones), each entry of the queue of constraints to propagate refers to a constraint that still exists.", "quantifier": "all histories of adding and removing constraints", "why_tests_cant": "A dangling entry only shows as memory corruption in rare multi-shot histories.", "anchors": ["libclingcon/src/solver.cc:Level::remove_constraint", "libclingcon/src/solver.cc:Level::remove_constraints", "libclingcon/src/propagator.cc:Propagator::remove_minimize"]}
{"id": "C59", "title": "Parser calls are posted faithfully", "statement": "For every call the parser makes (clause, linear, nonlinear, distinct, disjoint or domain), the clauses, simple constraints, domains and propagator constraints posted by the constraint builder are satisfied by an assignment (for suitable truth values of new auxiliary literals and values of new auxiliary variables) exactly if the call's constraint holds, new literals are determined, and a reported conflict means that the call's constraint cannot hold.", "quantifier": "all calls with any arguments, configurations and assignments", "why_tests_cant": "The case distinctions (number of terms, strictness, number of elements, truth values of literals on the top level, configuration) multiply, and equivalence quantifies over all assignments.", "anchors": ["libclingcon/src/propagator.cc:ConstraintBuilder"]}
{"id": "C60", "title": "Theory atoms are tagged by their position", "statement": "When a program is rewritten, each theory atom of the theory in the head of a rule is marked as a head atom (implication) and each one in a body literal as a body atom (equivalence), no atom is marked twice or left unmarked, and the position and number of literals, elements and conditions is kept.", "quantifier": "all rules, with any nesting of literals and conditions", "why_tests_cant": "The marking depends on a flag that is threaded through a traversal of trees of any shape.", "anchors": ["libclingcon/src/parsing.cc:TheoryRewriter", "libclingcon/src/parsing.cc:tag_terms", "libclingcon/src/parsing.cc:transform"]}
{"id": "C61", "title": "Bounds taken over from another solver are enforced exactly", "statement": "When a solver takes over the top-level bounds of another solver, the clauses posted and facts recorded imply, for every variable, exactly the bounds of the other solver: all values within both sets of bounds stay possible, and no value outside the bounds of the other solver does.", "quantifier": "all states, bounds and assignments", "why_tests_cant": "An off-by-one at either bound only shows for values at the boundary, and whether an order literal exists already depends on the history.", "anchors": ["libclingcon/src/solver.cc:Solver::update_bounds", "libclingcon/src/solver.cc:Solver::update_literal", "libclingcon/src/propagator.cc:Propagator::init"]}
{"id": "C62", "title": "Reported objective bounds are merged to the least one", "statement": "After any sequence of reports of objective bounds with decision levels, the bound used by the solver is the least bound reported, the level is the least one among the first report of this bound and all later reports, and the objective is queued whenever a report changes either of them, while other reports change nothing.", "quantifier": "all sequences of reports of any length", "why_tests_cant": "Reports of several threads arrive in any order on any level.", "anchors": ["libclingcon/src/solver.cc:Solver::update_minimize", "libclingcon/src/propagator.cc:Propagator::check"]}
{"id": "C63", "title": "No violated linear constraint is missed", "statement": "In every state reached during search without conflict and without pending work, each linear constraint whose literal is not known to be false can be satisfied within the current bounds as far as its least value is concerned, and holds if all its variables are assigned; likewise for the objective and its current bound. A successful check leaves no pending work.", "quantifier": "all interleavings of adding variables, literals and constraints, propagation, checks, backtracking and reports of bounds", "why_tests_cant": "Constraints are set aside as inactive, queued by changes, and requeued on backtracking; whether some history forgets a constraint quantifies over all histories.", "anchors": ["libclingcon/src/solver.cc:Solver::check", "libclingcon/src/solver.cc:Solver::undo", "libclingcon/src/solver.cc:Level", "libclingcon/src/constraints.cc:SumConstraintState"]}
{"id": "C64", "title": "What is added is enforced in every accepted assignment", "statement": "Consider any sequence of calls on one solver (adding variables, order literals, constraints over one variable, domains and bounds of other solvers, propagation, checks, simplification, backtracking) in which no addition reports a conflict. In every total assignment of the Boolean solver that satisfies all clauses posted and whose order literals have been propagated without a conflict, each literal that was ever made an order literal, even if it was later replaced by a fact and removed from the tables, is true exactly if the reported value is at most its value; the reported values are in the domains of the variables; constraints over one variable and domains hold whenever their literals are true (exactly then for strict ones); and the bounds taken over hold. If the final check succeeds, linear and other constraints with true literals hold too.", "quantifier": "all sequences of calls of any length, all values within the final bounds, all total assignments", "why_tests_cant": "Literals of constraints are reused as order literals, replaced by facts and removed from the tables at unrelated later points; whether each of them still has its meaning depends on the entire history.", "anchors": ["libclingcon/src/solver.cc:Solver::add_simple", "libclingcon/src/solver.cc:Solver::add_dom", "libclingcon/src/solver.cc:Solver::update_domain_", "libclingcon/src/solver.cc:Solver::simplify", "libclingcon/src/propagator.cc:Propagator::on_model"]}
{"id": "C65", "title": "Optimization with several threads finds an optimum", "statement": "Consider one solve call with an objective and any number of threads, whose calls (propagation, partial and total checks, backtracking, ...) are interleaved in any way, where the shared bound is read without synchronization, so that a check may see any earlier bound. Then, the costs of reported models strictly decrease, the shared bound is one less than the cost of the last model and this cost is recorded; in each reported model all constraints whose literals are true hold; and as long as an assignment that satisfies everything added is better than all models reported, no thread posts a clause that excludes it or derives a contradiction. Hence, when search ends, the last model is optimal.", "quantifier": "all numbers of threads, all interleavings of any length, all bounds read late, all objectives and constraints", "why_tests_cant": "The bound is an atomic shared by threads that run at different speeds; tests see a few schedules, and a bound that excludes an optimum or a model that is not better than the last one may need a rare one.", "anchors": ["libclingcon/src/propagator.cc:Propagator::check", "libclingcon/src/propagator.cc:Propagator::on_model", "libclingcon/src/propagator.cc:Propagator::get_minimize_value", "libclingcon/src/solver.cc:Solver::update_minimize", "libclingcon/src/constraints.cc:MinimizeConstraint"]}
{"id": "C66", "title": "Calls that maintain order literals, bounds, levels and constraints return", "statement": "As long as no conflict on the top level has been reported, creating order literals, adding constraints over one variable, domains, variables and other constraints, removing constraints, propagating true literals, leaving a level, informing a constraint about a new bound of the objective, and removing the order literals of an earlier step never violate an assertion and never access a table, a stack or a list of watches out of range.", "quantifier": "all sequences of calls of any length that precede the call, all literals, values, domains and constraints", "why_tests_cant": "Tables of order literals change their representation, chains of neighbouring literals and recorded facts are updated by several functions, and stacks of bounds are emptied level by level; an access out of range needs a particular history, and release builds do not check assertions.", "anchors": ["libclingcon/src/solver.cc:Solver::get_literal", "libclingcon/src/solver.cc:Solver::update_literal", "libclingcon/src/solver.cc:Solver::update_domain_", "libclingcon/src/solver.cc:Solver::undo", "libclingcon/src/solver.cc:Solver::remove_constraint", "libclingcon/src/solver.cc:Solver::update", "libclingcon/clingcon/solver.hh:VarState"]}
{"id": "C67", "title": "The loop of check ends", "statement": "A call of check ends: the loop that integrates facts and propagates constraints until no new fact is found runs at most as often as there are values that can be removed from domains, plus one.", "quantifier": "all states reached by sequences of calls of any length, all constraints, all behaviours of the Boolean solver", "why_tests_cant": "The number of rounds depends on coefficients and domains and can be large; a loop that never ends in a rare case cannot be found by running a finite number of inputs for a finite time.", "anchors": ["libclingcon/src/solver.cc:Solver::check", "libclingcon/src/solver.cc:Solver::update_literal", "libclingcon/src/solver.cc:Solver::update_domain_"]}
{"id": "C68", "title": "check returns for linear constraints and objectives", "statement": "A call of check with linear constraints and objectives returns: no assertion on reasons, refined bounds, slacks and sums fails, the check of the states of constraints (check_state) finds no difference between the sums maintained incrementally and the bounds of variables, no access is out of range, and no exception is thrown.", "quantifier": "all states reached by sequences of calls of any length without conflict on the top level, all linear constraints with nonzero coefficients, all objectives with a bound in the range of values, on all levels, for all Boolean solvers that do unit propagation for added clauses", "why_tests_cant": "The assertions in the refinement of reasons depend on which order literals exist and how they are assigned, and incremental sums depend on the whole history of levels, removed watches and pending changes.", "anchors": ["libclingcon/src/solver.cc:Solver::check", "libclingcon/src/constraints.cc:SumConstraintState::propagate", "libclingcon/src/constraints.cc:SumConstraintState::calculate_reason_", "libclingcon/src/constraints.cc:SumConstraintState::check_state", "libclingcon/src/solver.cc:Solver::Level::update_constraints_"]}
{"id": "C69", "title": "Between solve calls exactly the literals introduced during search are discarded", "statement": "After update(), the order literals of variables are exactly the ones before the call that are facts or whose atoms do not exceed the marked one (mark_variables); bounds, constraints and queues are unchanged, and the bound on the objective is removed.", "quantifier": "all states reached by sequences of calls of any length, all marked atoms, all variables, values and literals", "why_tests_cant": "The loop changes the map it iterates over and the links between neighbouring order literals at the same time; whether an entry is skipped depends on the whole map.", "anchors": ["libclingcon/src/solver.cc:Solver::update", "libclingcon/clingcon/solver.hh:Solver::mark_variables", "libclingcon/clingcon/solver.hh:VarState::unset_literal"]}
{"id": "C70", "title": "Propagation of order literals is complete", "statement": "Once all order literals that are assigned on a level have been passed to successful calls of propagate, the order literals agree with the bounds of variables: all literals for values not below the upper bound are true, all literals for values below the lower bound are false, and literals above true ones are true and below false ones are false.", "quantifier": "all states reached by sequences of calls, all sequences of propagate calls on a level above the top level of any length, all orders in which literals are passed, all Boolean solvers that do unit propagation for added clauses, with and without chains of clauses", "why_tests_cant": "The traversal stops at the first literal that is already true, so that completeness rests on calls for other literals that may come before or after.", "anchors": ["libclingcon/src/solver.cc:Solver::propagate_variables_", "libclingcon/src/solver.cc:Solver::update_upper_", "libclingcon/src/solver.cc:Solver::update_lower_", "libclingcon/src/solver.cc:Solver::update_domain_"]}
{"id": "C71", "title": "A program is turned into an equivalent set of posted constraints", "statement": "If the theory atoms of a program are parsed and all resulting calls are handed to the constraint builder, then the clauses, domains, simple constraints and constraints posted capture the program: a truth assignment to the literals of the program and an assignment of integers to its symbols can be extended to the auxiliary literals such that everything posted holds if and only if every theory atom has its meaning. If false is reported, there is no such assignment. The calls of the parser are of the form the constraint builder relies on, and its calls are of the form the solver relies on: literals are known, coefficients are not zero, variables occur once in each sum, sizes are positive, domains are canonical.", "quantifier": "all programs, all numbers and kinds of theory atoms, all states of the builder, all Boolean solvers with sound truth values, all assignments", "why_tests_cant": "The parser and the constraint builder each rewrite atoms in several steps and introduce auxiliary literals; that no combination of steps changes the meaning of some program is a claim about all programs.", "anchors": ["libclingcon/src/parsing.cc:parse", "libclingcon/src/parsing.cc:simplify", "libclingcon/src/propagator.cc:ConstraintBuilder::add_constraint", "libclingcon/src/propagator.cc:ConstraintBuilder::add_nonlinear", "libclingcon/src/propagator.cc:ConstraintBuilder::add_distinct", "libclingcon/src/propagator.cc:ConstraintBuilder::add_disjoint", "libclingcon/src/propagator.cc:ConstraintBuilder::add_dom"]}
{"id": "C72", "title": "Answers are exactly the solutions of the program", "statement": "If a program is parsed and everything posted is passed on to the solver, then whenever the final check accepts a total assignment, every theory atom of the program has its meaning for the reported values. Conversely, for every assignment under which all theory atoms have their meaning, there is an extension to auxiliary literals in which everything ever posted to the Boolean solver holds, over any sequence of calls of the propagator; in particular, no conflict on the top level is reported and the top level bounds contain the values.", "quantifier": "all programs, all sequences of calls of any length with any interleaving of decisions, propagation, undoing and simplification, all Boolean solvers with sound truth values, all solutions", "why_tests_cant": "Answers depend on the interplay of parser, constraint builder, order literals, propagation and final check over all possible searches.", "anchors": ["libclingcon/src/parsing.cc:parse", "libclingcon/src/propagator.cc:Propagator::init", "libclingcon/src/propagator.cc:Propagator::check", "libclingcon/src/propagator.cc:Propagator::add_constraint", "libclingcon/src/solver.cc:Solver::check", "libclingcon/src/solver.cc:Solver::check_full", "libclingcon/src/solver.cc:Solver::propagate"]}
{"id": "C73", "title": "Translation preserves solutions and costs", "statement": "Translating all constraints of the solver to the Boolean solver neither removes nor adds solutions: each solution of the problem before Solver::translate (values of variables within bounds and truth values such that everything posted holds, order literals mean what they stand for and all constraints in use whose literals are true hold) can be extended to the variables and literals introduced on the way such that it is a solution afterwards; conversely, each solution afterwards is a solution before, although the translated constraints have been removed; and the cost (weights of minimize constraints posted to the Boolean solver plus the values of the objective functions still in use) is the same before and after.", "quantifier": "all reachable states at the top level, all vectors of linear, distinct, disjoint, nonlinear and minimize constraints in use, all configurations of translation (clause and weight limits, distinct limits, order clauses), all values and truth values", "why_tests_cant": "Tests compare the answers of small programs; whether a removed constraint is enforced by what replaced it, including constraints that are themselves added and translated later in the same loop, has to hold for all constraints, bounds, limits and states of the order tables.", "anchors": ["src/solver.cc: Solver::translate", "src/constraints.cc: SumConstraintState::translate, MinimizeConstraintState::translate, DistinctConstraintState::translate", "src/propagator.cc: Propagator::translate_"]}
{"id": "C74", "title": "Answers with translation are exactly the solutions of the program", "statement": "Translation is part of runs: it consists of calls that introduce order literals, other literals, variables and linear constraints, post clauses and weights, and remove constraints, so that everything shown for sequences of calls applies. If constraints are set up, translated and then searched over, then the values reported for an accepted total assignment satisfy everything added before the translation, including the constraints that were translated and removed, and all theory atoms of the program have their meaning. Conversely, each assignment not excluded by what was added before the translation can be extended to the literals and variables introduced by it such that nothing derived afterwards excludes it, over any sequence of calls.", "quantifier": "all programs, all sequences of calls before and after the translation with any interleaving of decisions, propagation and undoing, all configurations of the translation, all solutions", "why_tests_cant": "Tests compare answers of small programs with and without translation; whether removed constraints are still enforced, and whether introduced literals and variables exclude solutions later, depends on all possible searches afterwards.", "anchors": ["libclingcon/src/solver.cc:Solver::translate", "libclingcon/src/propagator.cc:Propagator::init", "libclingcon/src/propagator.cc:Propagator::translate_", "libclingcon/src/constraints.cc:translate"]}
{"id": "C75", "title": "Simplification leaves nothing pending on the top level", "statement": "If simplify succeeds on the top level, then it has alternated Boolean propagation, propagate and check, has passed each literal on the trail not passed by earlier calls to propagate exactly once and in the order of the trail, and the whole trail has been read. No constraint is queued anymore; if there was anything to do, then no change of a bound is pending and all facts have been integrated. If the bounds reflected the order literals on the part of the trail read before, then they reflect all order literals on the trail, and other calls on the top level keep this.", "quantifier": "all sequences of calls before, all trails that grow with the calls made and consist of existing literals, all behaviours of the Boolean solver, all numbers of iterations", "why_tests_cant": "The loop ends when the trail does not grow and nothing is queued; literals can be added to the trail by the Boolean solver, by facts, and by clauses of constraints in any round, and tests only cover a few interleavings.", "anchors": ["libclingcon/src/solver.cc:Solver::simplify", "libclingcon/src/solver.cc:Solver::propagate", "libclingcon/src/solver.cc:Solver::check"]}
{"id": "C76", "title": "Decisions are free and go as far as possible", "statement": "When the Boolean solver asks for a decision in a state where order literals and bounds agree (which holds once all assigned order literals have been passed to propagate), and proposes a free literal, then decide returns a free literal and no assertion fails. Without heuristic, or if the proposed literal is not an order literal or its complement, the proposal is returned. With the heuristic max-chain, the literal returned for a proposed upper bound is the one for the smallest upper bound that is still free, and for a proposed lower bound the one for the largest lower bound that is still free, so that the decision implies the proposal.", "quantifier": "all reachable states, all free literals proposed, all assignments of the Boolean solver that agree with the bounds", "why_tests_cant": "A decision on an assigned literal is an error of the Boolean solver that only shows if order literals and bounds disagree; whether they can disagree depends on the history of propagation.", "anchors": ["libclingcon/src/solver.cc:Solver::decide", "libclingcon/src/propagator.cc:Propagator::decide"]}
{"id": "C77", "title": "Distinct constraints are translated according to current bounds", "statement": "When constraints are translated in a solve step, a distinct constraint is replaced by weight constraints for the values that its terms can have according to the bounds of variables at that time. In particular, values excluded by the constraint remain excluded when the constraint has been removed, also in solve steps after the first one.", "quantifier": "all sequences of calls over several solve steps, all distinct constraints, all limits for the size of the translation", "why_tests_cant": "The bounds of terms are recorded during search and refreshed lazily; a difference between recorded and current bounds depends on what the search did in an earlier step, and the wrong translation only shows in answers that use values outside of the recorded bounds.", "anchors": ["libclingcon/src/constraints.cc:DistinctConstraintState::translate", "libclingcon/src/constraints.cc:DistinctConstraintState::undo", "libclingcon/src/constraints.cc:DistinctConstraintState::estimate_", "libclingcon/src/constraints.cc:DistinctConstraintState::domain_", "libclingcon/src/constraints.cc:DistinctConstraintState::update_", "libclingcon/src/propagator.cc:Propagator::init"]}
{"id": "C78", "title": "All threads are prepared alike for each solve step", "statement": "Propagator::init removes the old objective, forgets literals of the last step, adds the theory atoms, takes over the bounds found by all other solvers, simplifies the top level, adds the new objective, translates, and copies the result to all threads. If it reaches its end, then all solvers are in exactly the same state, there is one solver for each thread, the constraints of the propagator are exactly those in use in the solvers and all their literals are watched, and the only objective among them is the new one, which is dropped if it has been given to the Boolean solver, and whose bound is forgotten otherwise. The same holds before the next call of init if the search of all threads is undone in between, for any number of threads, steps, and changes of the number of threads.", "quantifier": "for all theory atoms, objectives, numbers of threads, configurations of the translation, sequences of calls during the search, and sequences of solve steps", "why_tests_cant": "Tests run a few programs with few threads; the states of other threads are not observable, and a difference between threads only shows for particular interleavings of the search.", "anchors": ["libclingcon/src/propagator.cc:Propagator::init", "libclingcon/src/propagator.cc:Propagator::translate_", "libclingcon/src/propagator.cc:Propagator::remove_minimize", "libclingcon/src/solver.cc:Solver::copy_state"]}
{"id": "C79", "title": "Answers of all threads in the first solve step are exactly the answers of the program", "statement": "Let the theory atoms of a program be parsed and handed to the propagator, and let Propagator::init prepare the solvers of all threads, with any objective and any configuration of the translation. Let the search of any of the threads, with any sequence of calls of propagate, undo and check, end with a total assignment that satisfies all posted clauses and is accepted by the final check. Then every theory atom of the program has its meaning for the values reported by this thread. Conversely, for each truth assignment to the atoms and each assignment of values for which all theory atoms have their meaning, there is an extension to what init introduces such that nothing derived by any of the threads excludes it.", "quantifier": "for all programs, objectives, numbers of threads, configurations of the translation, sequences of calls during the search of each thread, and total assignments", "why_tests_cant": "Tests compare the answers of small programs for a few configurations; the claim connects parser, simplification, translation, copies of the solver for other threads and the search, and holds for all interleavings.", "anchors": ["libclingcon/src/propagator.cc:Propagator::init", "libclingcon/src/propagator.cc:Propagator::propagate", "libclingcon/src/propagator.cc:Propagator::check", "libclingcon/src/parsing.cc:parse", "libclingcon/src/solver.cc:Solver::copy_state"]}
{"id": "C80", "title": "Optimization in the first solve step reports answers of the program and ends with an optimum", "statement": "Let the theory atoms of a program and an objective be handed to the propagator, let Propagator::init prepare the solvers of all threads, and let the threads search with a shared bound, interleaved in any way. Then the costs of reported models strictly decrease. Each reported model whose truth assignment satisfies what the thread has posted gives every theory atom its meaning and respects the bound. If a thread ends with a contradiction, then the last reported model is at least as good as every assignment that is not excluded by the program.", "quantifier": "for all programs, objectives, numbers of threads, configurations of the translation, interleavings of calls of all threads, and times at which threads read the shared bound", "why_tests_cant": "Tests optimize small programs with few configurations; the claim covers all interleavings of threads and connects parsing, preparation of solvers, and the exchange of bounds.", "anchors": ["libclingcon/src/propagator.cc:Propagator::init", "libclingcon/src/propagator.cc:Propagator::check", "libclingcon/src/propagator.cc:Propagator::on_model", "libclingcon/src/propagator.cc:Propagator::update_minimize", "libclingcon/src/solver.cc:Solver::update_minimize"]}
{"id": "C81", "title": "Distinct moves bounds equal to the value of a fixed element", "statement": "If a bound of an element of a distinct constraint whose literal is true has changed, the bound equals the value of another element that is fixed, and the element is not fixed itself, then a successful call of Solver::check leaves a state in which a literal that moves the bound is true, or posts a clause in which all literals are false except the ones that move the bound and the negation of the literal of the constraint.", "quantifier": "for all lists of elements, coefficients, histories of calls, and Boolean solvers", "why_tests_cant": "Missed propagation does not change the set of answers, so tests on answer sets do not see it; which elements are compared depends on queues and marks that are the result of the history.", "anchors": ["libclingcon/src/constraints.cc:DistinctConstraintState::update", "libclingcon/src/constraints.cc:DistinctConstraintState::mark_todo_", "libclingcon/src/constraints.cc:DistinctConstraintState::propagate", "libclingcon/src/constraints.cc:DistinctConstraintState::propagate_"]}
{"id": "C82", "title": "Check finds nonlinear constraints that no values between the bounds satisfy", "statement": "Let a nonlinear constraint ca*x*y + cb*z <= r be queued or a bound of one of its variables have changed since the last propagation, and let no values of x, y and z between their current bounds satisfy the constraint. Then after a successful call of Solver::check the literal of the constraint is false, or a clause has been posted whose literals all state that a variable of the constraint has a value outside of its current bounds. Below a decision, if the current bounds are justified by literals, then the call reports a conflict to a solver that rejects clauses whose literals are all false, unless the literal of the constraint is false.", "quantifier": "for all coefficients, bounds of any sign, histories of calls, and Boolean solvers", "why_tests_cant": "The bounds of a product depend on the signs of both factors and the coefficient, and whether a constraint is propagated at all depends on watches, queues and marks that are the result of the history.", "anchors": ["libclingcon/src/constraints.cc:NonlinearConstraintState::propagate", "libclingcon/src/constraints.cc:NonlinearConstraintState::get_bound", "libclingcon/src/constraints.cc:NonlinearConstraintState::update", "libclingcon/src/solver.cc:Solver::check", "libclingcon/src/solver.cc:Solver::Level::update_constraints_"]}
{"id": "C83", "title": "Check prunes by the bound of the objective", "statement": "Let the solver know a bound of the objective, and let the objective be queued (as it is after Solver::update_minimize changed the bound) or a bound of one of its variables have changed since the last propagation such that the least value of the objective increased. If the least value of the objective within the current bounds exceeds the bound of the objective, then a successful call of Solver::check has posted a clause, tagged as belonging to the current solve step, in which all literals are false; in particular, the call reports a conflict if the solver rejects such clauses.", "quantifier": "for all objectives, bounds, histories of calls, and Boolean solvers", "why_tests_cant": "Missed pruning only makes the search for an optimum longer, so tests on optima do not see it; whether the objective is propagated depends on watches, queues and recorded bounds that are the result of the history.", "anchors": ["libclingcon/src/solver.cc:Solver::check", "libclingcon/src/solver.cc:Solver::update_minimize", "libclingcon/src/constraints.cc:MinimizeConstraintState", "libclingcon/src/constraints.cc:SumConstraintStateImpl::propagate"]}
