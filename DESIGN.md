# Formal model of clingcon in Lean 4

The Lake project is in `lean/`. `lake build` in `lean/` checks everything.

## Layout

* `lean/Verif/Model/*.lean`  executable definitions that follow the C++ code, each with a comment citing file and lines in /repo.
* `lean/Verif/Spec/*.lean`   small specifications that do not use the helpers of the model.
* `lean/Verif/Proof/*.lean`  helper lemmas.
* `lean/Verif/Props/*.lean`  the property theorems, with non-vacuity `example`s next to them and `#print axioms`.
* `properties.jsonl` the properties, `MANIFEST.json` the status, `seeded/LOG.jsonl` experiments with seeded bugs.

## Trusted base

* Lean 4.33.0 kernel and the axioms `propext`, `Classical.choice`, `Quot.sound` (each property theorem prints its axioms). No other axioms, no `sorry`, no `native_decide`, no `bv_decide`.
* The reading of the C++ code by hand: the correspondence between C++ and the Lean definitions is by inspection (citations in the comments).
* clasp/clingo is not modelled. Where the code calls it, the model has an arbitrary parameter (an oracle for truth values, fixed literals, results of adding clauses, fresh literals). Assumptions on the oracle are explicit hypotheses: fresh literals are fresh, and literals reported as fixed on level 0 are true in every Boolean model of the program and of the clauses added so far.
* The C++ standard library containers are modelled by lists/association lists; hash tables by functions or association lists (iteration order of hash tables is never relied on).
* `val_t` is 32-bit, `sum_t` 64-bit, `nsum_t` 128-bit. Arithmetic in the model is over unbounded integers with explicit checks where the code checks; overflow of unchecked arithmetic is the subject of C48 and of the range theorems next to the individual properties.

* The order in which the propagator and clasp call the solver (the protocol) is the hypothesis `Op.pre` of `Model/Run.lean`: variables and constraints are added on level 0 and with valid bounds, `undo` is called for the current level only, and so on. `Reach W` says that `W` is the state after some sequence of calls that meets these conditions from the initial state (`World.init`), with an arbitrary Boolean solver that may be a different one for each call. The calls of the clause creator that translation makes on the top level (new literals, clauses, weight constraints, weights of the objective) and the request to translate all objectives are calls of their own (`Op.fresh`, `Op.post`, `Op.enable`), so that translation is a sequence of calls as well. Calls that raise are not part of such a sequence.

* `Model/Propagator.lean` models symbol tables, the assignment iteration of the API, show signatures, objective and statistics of `propagator.cc`; `std::sort` of the objective is a parameter that permutes its input. `Model/Options.lean` models option parsing and configuration of `clingcon.cc`; reading numbers from a stream follows the C++ standard (conversion as if by `strtoll`/`strtoull` in the classic locale), and a null `end` makes `strncmp` compare whole strings.

* `Model/Translate.lean` models the translation of constraints. The comparison with the ratio in floating point, the order of elements of new constraints and the statistic that counts clauses are parameters (`TConf`). The meaning of a weight constraint of the Boolean solver (`add_weight_constraint` with a type) and of minimize literals is part of the specification (`Spec/Constraints.lean`, `Spec/Translate.lean`).
* `Model/InitClause.lean` models `InitClauseCreator` (base.hh:278-398). clingo's `add_clause`, `add_weight_constraint` and `add_minimize` are events; whether clingo accepts is a parameter. The meaning of these events is in `Spec/InitClause.lean`.
* `Model/Transform.lean` models the rewriting of programs (`match`, `shift_rule`, `tag_terms`, `rewrite_tuple`, `TheoryRewriter`, `transform`; parsing.cc:49-240, 886-894). Nodes of clingo's AST that play no role are opaque (`Node.other`). Trusted: `unpool` (a parameter), and that the visitor visits the node itself and then its children in the order in which they are written. The branch of `match` and `tag_terms` for symbolic terms reads the attribute `term`, which such nodes do not have, and `tag_terms` changes its argument instead of the copy there; clingo's parser only creates functions as terms of theory atoms, so that this branch is not reached.
* `Model/Handing.lean` hands the calls of the parser to the constraint builder. The code does this as soon as a call is made; in the model, all calls of the parser come first. The only difference is that fresh literals of the constraint builder are numbered after those of the parser.
* `Model/Init.lean` models `Propagator::init` (propagator.cc:390-463) for all threads. The calls made while theory atoms are parsed, the result of `commit`, the trail, and the number of variables of the Boolean solver are parameters.
* `Model/Optimize.lean` models `Propagator::check` (propagator.cc:509-537) and `get_minimize_value` (609-619) for one thread; the per-thread states and the shared bound are in `Spec/Optimize.lean`.

## Not modelled

clingo's grounder, AST library and C API marshalling, `app/main.cc`, printing, timers, memory management and exceptions thrown by allocation, `libpyclingcon`.

## Properties and how they are modelled and proved

* **C01 Floor division is mathematical floor** — `floordiv` over `Int.tdiv`/`Int.tmod` (C truncated division). Compared with an order-theoretic floor specification.
* **C02 Ceiling division is mathematical ceiling** — `ceildiv` as written. The code is wrong; the negation is proved with a witness, plus an exact characterisation of what it computes and of where it is right (`_partial`).
* **C03 Checked arithmetic is exact or refuses** — `safe_*` parametrised by the limits `min`/`max` of a two's complement type of any width; result type separates value / exception / undefined behaviour. Proved by case analysis with truncated-division lemmas.
* **C04 Domain splitting point makes progress** — `midpoint` over `BitVec`-like wrapping arithmetic (mod 2^32 on `Int`). Proved by unfolding the wrap.
* **C05 Interval set is the union of the added intervals** — `std::map` as a sorted association list; `add`'s backwards merge loop as a recursion over the reversed prefix; invariant by induction over histories, queries refined to set membership.
* **C06 Simplification of linear sums preserves value** — `simplify` as the in-place loop over a list with the `seen` table; value preservation for all assignments, canonical form, ranges.
* **C07 Parsed linear terms denote their arithmetic value** — Ground theory terms as an inductive type; parser with error results; semantics of terms as a separate evaluator.
* **C08 Relations are normalised without changing meaning** — `normalize_constraint` emitting into an abstract builder log (clauses, constraints, strict flag); semantics of the log; completeness and uniqueness of auxiliary literals.
* **C09 Whole linear constraint atoms mean what they say** — Composition of C06-C08 and gcd division.
* **C10 Accepted nonlinear constraints keep all their terms** — Nonlinear term list, `simplify`, builder dispatch as written. Negation with witness (dropped product, rejected order); `_partial` for lists of the one order that works.
* **C11 Body &nsum atoms are equivalent to their relation** — `add_nonlinear` as written. Negation with witness; `_partial` for non-strict use.
* **C12 Shifting constraints from integrity constraints preserves satisfaction** — Rules as lists of signed literals and theory atoms; classical satisfaction.
* **C13 Multiset semantics of theory elements** — Elements as templates over variables, substitutions as functions; injectivity.
* **C14 String unquoting inverts quoting** — `unquote` over `List Char`, `quote` as specification.
* **C15 Single variable constraints** — `add_simple` in the clause-creator monad; meaning of the emitted clauses, literals and facts.
* **C16 Domain constraints** — `add_dom` in the same monad; exact for non-empty sets, negation with witness for the empty set.
* **C17 Order clauses are valid** — Order-literal core of the solver (`get_literal`, `update_literal`, `propagate_`, `update_domain_`, ...) with an arbitrary clause-adding environment; invariant: every emitted clause holds in every intended model, by induction over sequences of calls without constraints (`Spec.OrderRun`). The clauses added between neighbouring order literals on the top level are shown to be exactly the ones that make them monotone (`Props/OrderClauses.lean`).
* **C18 Neighbour links of order literals stay correct** — Same state with neighbour links; invariant by induction over operations.
* **C19 Representation switch of order literals is transparent** — Tree/array union modelled literally with out-of-range access as a distinct outcome; refinement to a finite map.
* **C20 Backtracking restores bounds** — Bound stacks and undo lists; induction over histories.
* **C21 Incremental sums equal recomputed sums** — Levels, watches, pending differences, inactive constraints; invariant by induction over histories.
* **C22 Linear propagation loses no solution** — `propagate`/`calculate_reason_` of linear constraints in the monad; validity of each emitted clause.
* **C23 Linear propagation detects violation** — Same model; conflict and inactivity conditions. `C23_check`: the same for a call of `check` with a pending change of a bound that increases the least value (delivery of changes queues the constraint and the recorded least value is exact afterwards). `C23_check_conflict`: check fails if the solver rejects clauses whose literals are all false and the literal of the constraint is true.
* **C24 Accepted models satisfy all constraints** — `check_full` of the solver and of each constraint kind.
* **C25 Weight constraint translation is equivalent** — `weight_translate_`; equivalence of the emitted pseudo-Boolean constraint.
* **C26 Clause translation is equivalent** — `clause_translate_` with its explicit stack; equivalence of the emitted clause set.
* **C27 Clause limit is respected** — `clause_estimate_` and `clause_translate_` traverse the same tree; count.
* **C28 Translated objective equals the objective** — `translate` of the objective.
* **C29 Optimisation bound protocol** — Shared bound as a state machine with arbitrary interleavings of reports.
* **C30 Objective is stable over solve steps** — `prepare_minimize`/`remove_minimize` as written; negation with witness and `_partial` for objectives with constant 0; exact law of what happens (constant flips sign).
* **C31 Distinct propagation loses no solution** — `propagate_`/`propagate_assigned_` of distinct constraints in the monad. Proved if the literal is true at the start or not fixed during the call; negation with witness otherwise (`Proof/Distinct.lean`, `Props/Distinct.lean`).
* **C32 Distinct detects violation** — Queueing as written; negation with witness (elements fixed before attachment). `_partial`: whenever one of two elements with the same fixed value is queued, the clause posted is conflicting (the literals asserted for one direction are the consequences of the other, so neither call can return early). `C32_check_partial` lifts this to `check`: facts that are integrated first keep the values of fixed variables and pending changes; a pending change of a bound is delivered to the watches, which queues the element and the constraint (the watches are present by the invariant of the bookkeeping, the marks by `MarkOK`), and other constraints propagated before leave the state of the constraint and the bounds unchanged. `C32_check_conflict_partial`: all literals of the second of the two clauses are already false when it is added, so `check` fails if the solver rejects such clauses.
* **C33 Distinct translation is equivalent** — `estimate_`, `domain_`, `var_` and `translate` for elements with any number of variables; for each value that more than one domain contains, the literals of the weight constraint are shown to be equivalent to the elements having the value. Assumes that recorded bounds are up to date (no element is marked dirty). The shortcut in constraints.cc:902 tests the negated lower literal against `-TRUE` where `TRUE` is meant; this matters only if an order literal is fixed but not yet integrated, hence the hypothesis of `C33_exact` that no table entry is the true literal.
* **C34 Pairwise distinct encoding is equivalent** — `add_distinct` pairwise branch; semantics of the emitted constraints.
* **C35 Disjoint propagation loses no solution** — Disjoint algorithm in the monad; `std::sort` is a parameter (`Sorter`, any function returning a permutation ordered by the key). The Hall argument is by counting (`Proof/Disjoint.lean`). Proved if the literal is true at the start or not fixed during the call, all sizes are at least 1 (the parser ensures this) and bounds are justified by literals; negation with witness otherwise (`Props/Disjoint.lean`).
* **C36 Pairwise disjoint encoding is equivalent** — `translate_disjoint_`; semantics.
* **C37 Nonlinear propagation loses no solution** — `propagate` of nonlinear constraints as written. Negations with witnesses (missing literal in the reason; wrong ceiling), `_partial` for facts without negative linear coefficient.
* **C38 Translation removes exactly the translated constraints** — The partition loop of `translate` over arbitrary outcome functions.
* **C39 Committed weight constraints have the intended direction** — `add_weight_constraint` and `commit`.
* **C40 Variables and symbols correspond one to one** — Symbol/variable tables as a state machine.
* **C41 Assignment iteration is complete and valid** — Iteration functions over arbitrary tables; negation for gaps plus completeness.
* **C42 Shown variables** — `shown` over histories of show statements.
* **C43 Thread specific options override defaults independent of order** — Deferred option setters and validation.
* **C44 Direct configuration is last-writer-wins per thread** — Lazy thread configurations refined to a total function.
* **C45 Numeric options respect their range** — Option string recognisers as written; negation for prefixes/empty strings; exact characterisation.
* **C46 Statistics accumulate** — `accu` over histories.
* **C47 Threads start from equal state** — `copy_state` field by field (`Model/Copy.lean`), pointers are positions and a failed lookup is undefined behaviour; equality of states is listed field by field in `Spec/Copy.lean`; that no lookup fails is an invariant over sequences of calls (`Proof/Inactive.lean`, C58).
* **C48 No overflow in sums** — `Model/Machine` repeats the functions of linear propagation with machine arithmetic: every sum, product, slack and new bound is checked against the type it is computed in, and a value out of range is undefined behaviour. Invariant (`Boxed`): bounds of variables stay in the valid range if variables are added with valid bounds. Then the machine version equals the version over unbounded integers (so nothing overflows) for accepted sums that stay three below the limit, for propagation, update and undo. Negation with witness at the extreme: `slack + 1` for a sum whose largest value plus right-hand side is 2^63-1. Not covered: expressions in assertions, the sums posted by the translation of distinct constraints (which add a variable to a sum after simplification).
* **C49 Final check terminates by splitting** — `check_full` splitting with measure.
* **C50 Value reporting** — `Spec/Given.lean` records the literals passed to `propagate` for each level (`Fed`). Invariant `GI` (`Proof/GivenRun.lean`, `Proof/GivenOps.lean`): on each level, literals passed imply the corresponding bounds, and bounds that differ from the ones on the top level are given by a literal passed. Invariant `FI` (`Proof/GivenFacts.lean`): facts among order literals are recorded until they are integrated. Theorems in `Props/Given.lean`. Assumption: clingo passes all watched literals that become true.
* **C51 Registering theories is independent** — Registration as a state machine with a process-wide static record; negation with witness.
* **C52 Disjoint check detects overlap** — `check_full` of disjoint constraints using the interval set of C05.
* **C53 Programs** — Per-atom theorems (C08–C10 and the analogous ones for distinct, disjoint, dom and directives) composed over the list of atoms: what has been posted so far becomes part of the assumption for the next atom. Partial because of finding C10.
* **C54 Objective** — Only objective statements make `minimize` calls (frame lemma through normalisation); the value of these calls is the signed sum.
* **C55 Show** — Same frame lemma; the show calls are the concatenation of the calls per statement.
* **C56 Bound consistency** — `Sum.propagate` as written: negation with witness (an upper bound one below the current one is missed), `_partial` for everything else.
* **C57 Sessions lose no solution** — Induction over sequences of calls (`Spec.AdmRun`): each call keeps the state faithful to every assignment that is admitted by what is added; uses the bookkeeping invariants of C20/C21 for the states in which constraints are propagated. Disjoint constraints need that bounds are justified by literals, which is kept during checks (`Proof/Justify.lean`) and follows for sequences of calls from C50 (`C57_fed_partial`). `_partial` because of the defects of C31, C35 and C37.
* **C58 Queue of constraints** — `todo_` and the flags as in `Model/Level.lean`; negation with witness, `_partial` for sequences (`Spec/Queue.lean`) that do not remove a single constraint while the queue holds entries from before a call of `remove_constraints`; invariant by induction over the calls (`Proof/Queue.lean`).
* **C60 Theory atoms are tagged by their position** — `TheoryRewriter` in `Model/Transform.lean`; induction over trees.
* **C59 Parser calls are posted faithfully** — `ConstraintBuilder` in `Model/ConBuilder.lean`, meaning of posted things in `Spec/Posting.lean`; the sort used to order elements is a parameter (`PEnv.sort`, any permutation). Partial because of C11.
* **C61 Taking over bounds** — `update_bounds` up to the call of `check` (`takeBounds`); both directions over the list of variables, using the meaning of order literals (C17) and of pending facts.
* **C62 Reports of bounds** — `update_minimize` folded over any list of reports; induction over the list.
* **C63 No violated linear constraint is missed** — Sequences of calls during search are `Spec.Search` in `Spec/Search.lean`. What is assumed about the Boolean solver is `Answers` there: assigned literals stay assigned until backtracking, literals reported as false are known to be false, and clauses accepted by a successful call are propagated to fixpoint. What is assumed about the order of calls is `searchPre`: after a conflict the level is undone, and bounds of the objective are reported at the current level before new levels are opened (propagator.cc:509-537). The invariant `Cov` (`Proof/Cover.lean`) says that each constraint that is not queued is satisfiable in the current bounds or set aside on a level at which it was redundant or false; it is kept by all calls (`CoverCheck`, `CoverRun`, `CoverStep`) and by backtracking through a snapshot per level (`CoverUndo`).
* **C64 What is added is enforced** — Sequences are `OkFed` in `Spec/OkRuns.lean`, and what has been added is `holdsAll` there. The proof goes back in time: if an assignment agrees with order literals, top-level bounds and facts of a state (`Meets`), then it agrees with the ones of the state before each call, and literals that have become order literals in between have their meaning (`Mean`, `Proof/Mean.lean`, `MeanFacts`, `MeanRun`). The start of this induction is the final state, where C50 applies; what is added by a call is then given by C15, C16 and C61. Sequences belong to one solve call (`update` removes order literals). Bounds taken over and domains are added on the top level.
* **C65 Optimization with several threads** — `Model/Optimize.lean` has `Propagator::check` and `get_minimize_value` for one thread; `Solve` in `Spec/Optimize.lean` interleaves the calls of any number of threads. Partial checks take any bound that was ever stored (the atomic is read and written with relaxed order, so this is what the standard permits up to coherence). A total check that succeeds and the report of its model are one step: clasp calls `check` for a total assignment and `on_model` under its model lock. States of threads before solving are reached by their own calls (C47: a copy equals the original). Invariant over `Solve`: each bound stored is `NO_BOUND` or one below the cost of a reported model; each thread is in a state reached by a sequence of calls, so that C24, C50 and C57 apply to it. Assignments better than all models satisfy each reported bound, so that sequences remain admissible in C57. Arithmetic is unbounded, costs are assumed to be at most the largest bound.
* **C66 Calls return** — assertions and accesses out of range are the outcome `Err.ub` of the model, so the property is that calls return. `Proceed` in `Spec/Safe.lean` is a sequence of calls that return without a conflict on the top level, `mustReturn` the conditions on arguments and on the Boolean solver. Invariants over such sequences: tables and chains are well formed (`TI`, C14, C15), recorded facts are order literals of different values (`FC`, new), bounds are nested (`AllNested`), and levels, stacks and watches agree (`WI`, C21). For each function, progress is proved from these. After a conflict on the top level recorded facts are no longer in the tables, and the next attempt to integrate them violates an assertion (`C66_conflict_final`); the propagator stops at such a conflict. Not covered: progress of `check` and of propagation of constraints.
* **C67 The loop of check ends** — the loop `while (true)` is modelled with a number that bounds its rounds (`checkLoop`). `checkRounds` in `Spec/Rounds.lean` is the same loop with an arbitrary computation `stop` after the last round, and the theorem is that the two agree for every `stop` if there are more rounds than `domainSize` plus one; so no execution uses up the rounds. Facts at the beginning of a round after the first have been introduced by constraints in the round before, between the bounds (`FreshFacts`), so that integrating the first of them removes a value (`integrateFacts_first`, `size_le`). Above the top level no second round can begin (the assertion at solver.cc:848).
* **C68 check returns for linear constraints and objectives** — total correctness (`Yes` in `Proof/SafeSum.lean`): every function called by `check` returns and reestablishes the state `Rd`. `Responsive` (Spec/Responsive.lean) is what clasp guarantees when a clause is added above the top level: if the call succeeds, the clause is not unit unless its literal is true. The assertions in `calculate_reason_` hold since a new order literal is unassigned before its clause is added (`NewLits`), literals outside of the bounds are assigned (`OutLits`), and literals justifying the bounds are assigned (`BoundLits`). Sums equal those computed from the bounds since queued constraints are not removable on any open level (`BI.todo`, `Chk.counted`). The watches of linear constraints carry nonzero coefficients and changed bounds have nonzero differences, so that the assertion in `update` holds (`deliver_ok`). The loop ends by C67 (with `stop := pure true`).

* **C69 Between solve calls exactly the literals introduced during search are discarded** — the loop over the map of literals with an invariant: the order literals (`OrdLit`, read from the tables of variables) are those before without the atoms visited so far that exceed the marked one. Uses that entries of the map and tables correspond to each other (`TI`, see C18).

* **C70 Propagation of order literals is complete** — neighbours are read from the tables (`NextTrue`, `PrevFalse` in Spec/Chain.lean). A successful call for a literal makes its neighbour true (the first clause of the traversal is unit, `Responsive`) or finds it true via the links in the map, which are correct by C18. Calls on the same level keep tables and assigned literals (`Same`). Chains are followed by induction over the distance of values. `C70_out` is the assumption `OutLits` of C68.

* **C71 A program is turned into an equivalent set of posted constraints** — C53 and C54 composed. `Neat` (Proof/Handed.lean) and `PNeat` (Proof/HandedCon.lean) are invariants over all steps of the parser and the constraint builder giving the form of their calls; `captures_comp` (Proof/Composed.lean) composes two translations that introduce auxiliary literals, using that the meaning of a call depends on known literals only (`holds_local`). Model/Handing.lean runs the calls of the parser one after the other.

* **C72 Answers are exactly the solutions of the program** — C71 composed with C64 (accepted assignments satisfy what was added) and C57 (what is posted holds in each admitted assignment). `added_stays` (Proof/Answers.lean): a constraint that is added stays among the constraints of the solver with its elements. `postFed_admFed`: calls that only add what was passed on are admitted by solutions.

* **C73 Translation preserves solutions and costs** — Proof/TranslateKeep.lean and Proof/TranslateAll.lean lift preservation of properties of states to all functions of the translation; Props/TranslateSolutions.lean shows for one constraint that it is enforced, exact and can be extended (from C26, C28, C33), and Props/Solutions.lean does induction over the specification Translated of the loop (C38): backwards for C73_enforced because added constraints are established later in the queue, forwards for C73_kept after the extension has been constructed. Removal of constraints changes the bookkeeping only, and order clauses are covered by C17. Costs: only minimize constraints post weights, and the sum over the constraints in use loses exactly what was posted.

* **C74 Answers with translation are exactly the solutions of the program** — `kt_translateOne'` (Proof/TranslateKeep.lean) lifts preservation through the translation; with the property "there is a sequence of calls from the first state to this one" it decomposes the translation into calls (`C74_calls`). Then C64 and C72 apply from set-up to final check; `C74_solution` uses that the values at the end are a solution of the state after the translation (backwards through the calls of the search) and C73_enforced. For the converse, C57 gives that the assignment is a solution before the translation, `kept_parts` (as C73) extends it, `chain_plain` shows that the added constraints are linear over different variables, and C57 continues from the state afterwards. Props/TranslateCase.lean has the concrete case.

* **C75 Simplification leaves nothing pending on the top level** — Modelled: `factLoop` (Model/Check.lean) for solver.cc:643-669. Shown by induction over the iterations in Props/Simplified.lean: `Rounds` in Spec/Simplified.lean lists the calls made, the lists of literals passed concatenate to the part of the trail not read before, `todo` is empty at the end, and the last `check` leaves nothing pending (C20) and no facts (C50). That propagation and checks do not change the position on the trail is an invariant of all functions (`off_prim`); that literals on the trail are known uses the invariant that literals introduced are counted (`LI`). The condition that the trail is at least as long as the part read holds for all runs that use the trail (`C75_within`).

* **C76 Decisions are free and go as far as possible** — `solverDecide` as written, with the assertions that the literals returned are free as `Err.ub`. `LitsAgree` in `Spec/Decide.lean` says that exactly the order literals outside of the bounds are assigned. The entry of a literal determines variable and value (C18), the first order literal not below the lower bound and the last one below the upper bound are found by the chains (C19). The agreement itself follows from what has been passed to `propagate` (C50) and completeness of propagation (C70).

* **C77 Distinct constraints are translated according to current bounds** — `undo` of distinct constraints (constraints.cc:944-953) marks elements as dirty without queueing the constraint, and `translate` (constraints.cc:841-927) does not call `update_`, so that it uses bounds recorded at some point of the search of an earlier step. `C77_violated` gives a run over two solve steps with `x` and `y` in `[0, 3]`: a constraint too big for translation in the first step is translated in the second one, and `x = y = 0` becomes a solution. `C77_current_partial` shows by an invariant over calls that do not undo anything (constraints that are marked or have outdated bounds are queued) that recorded bounds are exact otherwise, and `C77_enforced_partial` that the translation in the first step is right. Missing, because it does not hold: later steps.

* **C78 All threads are prepared alike for each solve step** — `Model/Init.lean` models `Propagator::init` with `remove_minimize`, `add_minimize_`, `translate_` and the copies for the other threads. `Spec/Init.lean` describes the propagator between solve calls (`Resting`). It is shown to hold in the beginning (`C78_start`), after `init` (`C78_threads_partial`, using C38 for the constraints that remain after the translation, C74 for the calls made by it, C47 for the copies, and a new invariant for the flag `translate_minimize_`), and after searches that have been undone (`C78_search`). `C78_calls_partial` gives the exact sequence of calls on the first solver, so that theorems on sequences of calls apply. Not covered: if `init` returns early after the objective has been added to the first solver only, then `minimize_` is set although the other solvers have no such constraint; the next call of `remove_minimize` would violate an assertion. This only happens if the problem is unsatisfiable on the top level, after which solving again is pointless.

* **C79 Answers of all threads in the first solve step are exactly the answers of the program** — Combines C78 and C74: `C79_phases_partial` shows that what `init` does in the first solve step, followed by the search of any thread, is a sequence of calls to which C74 applies. The copy for another thread equals the first solver, so the history of the first solver is a history of the copy. `C79_answers_partial` then yields the meaning of the theory atoms for the reported values. `C79_kept_partial` and `C79_program_partial` show the converse, that no solution is lost, for all threads, from `C74_kept_partial`.

* **C80 Optimization in the first solve step reports answers of the program and ends with an optimum** — Combines C65, C78 and C79: `C80_ready_partial` shows that what `init` leaves behind meets the hypotheses of C65 in all threads, including that no other objective has ever been added. `C80_answers_partial` shows by induction over the interleaving (`solve_ok`) that each thread only performs calls that add nothing to the program, so that C79 applies to the reported values. `C80_optimal_partial` uses `solve_adm` (assignments better than all reported models are not excluded) together with the extension to auxiliary literals given by `C79_kept_partial` or `C79_program_partial`.

* **C81 Distinct moves bounds equal to the value of a fixed element** — Queues and marks as written. Negation with witness (`C81_negation`). `C81_bound_partial`: if a bound of an element in the queue for this bound is the value of a fixed element, the pair is propagated – either here or, if the first fixed element with this value is queued as well, when that one is handled. Needs as an invariant of all reachable states that marked elements are queued (`MarkOK` as part of `DistOK`).

* **C82 Check finds nonlinear constraints that no values between the bounds satisfy** — Watches, delivery of changed bounds, queue and propagation of nonlinear constraints as written. Delivery keeps the watches of active constraints and queues the constraint (`Due`), propagation of other constraints neither changes bounds nor the state of the constraint (`keepHere_checkOne`), the lower bound of the product is attained at a corner, and the literals of the clause are the ones of the current bounds (`LitOf`). Below a decision facts are not integrated, so bounds, tables and the justification of bounds stay as they are until the clause is added (`Passed`, `Deep`), and all its literals are false (`Refuted.false`).

* **C83 Check prunes by the bound of the objective** — Same as C23_check for the objective: delivery of changed bounds queues the objective if its least value increases (`updateWatches_wake`), the recorded least value is exact afterwards, the bound of the objective is not changed by propagation (`Steady`), and the reason found is a conflict. `C83_conflict`: check fails if the solver rejects clauses whose literals are all false.


## Disagreements between code and intended behaviour

Found by reading; each is to be backed by a theorem (negation with a concrete witness) in `Props/`:

1. `ceildiv` (util.hh:88-95) rounds in the wrong direction for exactly the inexact quotients (C02); used in nonlinear propagation it prunes solutions (C37).
2. Nonlinear propagation omits the constraint literal from its clauses (constraints.cc:1461-1518), so conditional `&nsum` atoms are enforced unconditionally (C37).
3. `add_nonlinear` in strict mode posts the complement for the same literal (propagator.cc:86-87), so body `&nsum` atoms with one term can never be true (C11).
4. The nonlinear shape check tests the linear coefficient (parsing.cc:481): a second product silently replaces the first, and `linear; product` is rejected (C10).
5. `prepare_minimize` re-adds the constant of the objective with the wrong sign (propagator.cc:255) (C30).
6. `&dom` with an empty set adds no clause (solver.cc:1028-1068) (C16).
7. `clingcon_assignment_next` may yield an index without value when there are gaps (clingcon.cc:608-617) (C41).
8. Distinct constraints do not queue elements that are already fixed when the constraint is attached (constraints.cc:817-839) (C32).
9. `slack + 1` in linear propagation can exceed 64 bits for a constraint accepted by `simplify` (C48).
10. Option keywords are accepted by prefix, including the empty string (clingcon.cc:139-155, 213-224) (C45).
11. The propagator record in `clingcon_register` is a function-local static initialised by the first call only (clingcon.cc:339-353) (C51).
12. `Sum::propagate` compares with `<` after subtracting one (constraints.cc:215), so that an upper bound that is exactly one below the current one is not derived (C56).
13. `Level::remove_constraints` clears the flags of constraints that stay in the queue (solver.cc:212-217) (C58).
14. Distinct and disjoint constraints leave their literal out of a clause if it is fixed, without regard to its value (constraints.cc:1158-1161, 1670). Constraints are propagated while their literal is undetermined, so that a first clause may make the literal false on the top level, and the next clause lacks it and excludes solutions (C31, C35).
15. `mark_todo_` of distinct constraints (constraints.cc:1226) looks at the sign of the coefficient but not at which bound changed; some propagation is missed, nothing is lost (C81).
16. Distinct constraints are translated according to bounds of terms recorded during the search of an earlier solve step: `undo` (constraints.cc:944-953) marks elements as dirty, and neither `simplify` nor `translate` (constraints.cc:841-927) refreshes them. Already the estimate of the size of the translation is wrong, because all terms are assigned in an answer, and values that terms can have are missing, so that wrong answers are possible (C77).
