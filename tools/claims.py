# (property, status, theorems, note)
CLAIMS = [
("C01", "proved", ["C01_floordiv_floor", "C01_floordiv_fits"], ""),
("C02", "partial", ["C02_ceildiv_not_ceil", "C02_ceildiv_partial"], "The code violates the property; C02_ceildiv_not_ceil gives a counterexample, C02_ceildiv_partial the operands for which it holds."),
("C03", "proved", ["C03_safe_add", "C03_safe_sub", "C03_safe_mul", "C03_safe_inv", "C03_safe_div", "C03_safe_mod", "C03_no_ub"], ""),
("C04", "proved", ["C04_midpoint", "C04_midpoint_eq"], ""),
("C05", "proved", ["C05_canonical", "C05_covered", "C05_contains", "C05_contains_interval", "C05_intersects", "C05_enumerate", "C05_extend"], ""),
("C06", "proved", ["C06_value", "C06_shape", "C06_range", "C06_total"], ""),
("C07", "proved", ["C07_value", "C07_fits", "C07_total"], "Exponentiation is a parameter (it is computed by the C library)."),
("C08", "proved", ["C08_normalize", "C08_total", "C08_negate"], ""),
("C09", "proved", ["C09_sum", "C09_diff", "C09_reject"], ""),
("C10", "partial", ["C10_nsum_partial", "C10_product_lost", "C10_order"], "The code violates the property: a second product replaces the first one and acceptance depends on the order; the partial theorem covers accepted atoms with at most one product."),
("C14", "proved", ["C14_unquote", "C14_name"], ""),
("C15", "proved", ["C15_enforced", "C15_exact", "C15_extends"], "For every faithful state on decision level 0; the Boolean solver is a parameter."),
("C16", "partial", ["C16_enforced_partial", "C16_exact", "C16_extends", "C16_empty_negation"], "The code violates the property for the empty domain (C16_empty_negation); everything else is proved."),
("C19", "proved", ["C19_table"], ""),
("C20", "proved", ["C20_undo_restores_bounds", "C20_check_settles"], "For every sequence of calls that meets the protocol conditions Op.pre."),
("C21", "proved", ["C21_sums_exact", "C21_minimize_exact", "C21_sums_pending", "C21_distinct_exact"], "For every reachable state; see Op.pre for the protocol."),
("C22", "proved", ["C22_propagate_sound", "C22_reachable"], "The Boolean solver is a parameter (EnvSound, EnvMono)."),
("C23", "proved", ["C23_conflict", "C23_inactive", "C23_check", "C23_check_conflict"], ""),
("C56", "partial", ["C56_bounds_partial", "C56_bound_missed"], "The code violates the property (an upper bound that is one below the current one is not derived); everything else is proved."),
("C53", "partial", ["C53_program_partial", "C53_agree"], "Programs with more than one product in a nonlinear sum are excluded because the code is wrong for them (C10_product_lost)."),
("C54", "proved", ["C54_objective"], ""),
("C55", "proved", ["C55_show"], ""),
("C18", "proved", ["C18_links", "C18_entries"], "For every reachable state; the Boolean solver is a parameter."),
("C24", "proved", ["C24_check_full", "C24_accepted", "C24_accepted_run"], "C24_accepted assumes that the order literals have been taken into account; C24_accepted_run derives this for sequences of calls."),
("C49", "proved", ["C49_split", "C49_terminates"], ""),
("C52", "proved", ["C52_disjoint_check"], ""),
("C29", "proved", ["C29_monotone", "C29_decrease", "C29_least", "C29_check"], "Reports of threads are atomic, in any order."),
("C30", "partial", ["C30_law", "C30_partial", "C30_negation"], "The code violates the property: the constant part of the objective changes its sign in each step (C30_negation, exact law C30_law)."),
("C40", "proved", ["C40_inverse", "C40_stable", "C40_add", "C40_aux"], ""),
("C41", "partial", ["C41_partial", "C41_gap"], "The code violates the property: indices of auxiliary variables are visited (C41_gap); completeness, order and termination are proved."),
("C42", "proved", ["C42_shown"], ""),
("C43", "proved", ["C43_settings", "C43_repeated", "C43_order"], ""),
("C44", "proved", ["C44_last"], ""),
("C45", "partial", ["C45_exact_partial", "C45_bounds", "C45_range", "C45_unsigned", "C45_bool", "C45_negation"], "The code violates the property: prefixes, the empty string and negative numbers are accepted in places (C45_negation)."),
("C46", "proved", ["C46_sums"], "Counters are 64-bit and wrap around."),
("C51", "partial", ["C51_negation", "C51_partial"], "The code violates the property: the propagator record is static (C51_negation)."),
("C11", "partial", ["C11_partial", "C11_law", "C11_negation"], "The code violates the property: in strict mode with one term the literal is forced to be false (C11_negation, exact law C11_law); the other cases are proved."),
("C31", "partial", ["C31_propagate_sound_partial", "C31_unsound"], "Proved for calls in which the literal of the constraint is true at the start or is not fixed during the call. The code violates the property otherwise: the literal is left out of clauses if it is fixed, whatever its value (C31_unsound)."),
("C34", "proved", ["C34_distinct", "C34_pairs"], ""),
("C35", "partial", ["C35_propagate_sound_partial", "C35_unsound"], "Proved for calls in which the literal of the constraint is true at the start or is not fixed during the call, and the current bounds are justified by literals. The code violates the property otherwise: the literal is left out of clauses if it is fixed, whatever its value (C35_unsound)."),
("C36", "proved", ["C36_disjoint"], ""),
("C37", "partial", ["C37_propagate_sound_partial", "C37_literal_missing", "C37_wrong_bound"], "The code violates the property: clauses do not mention the literal of the constraint (C37_literal_missing) and a bound divided by a negative coefficient is rounded in the wrong direction (C37_wrong_bound). Proved for constraints that hold unconditionally and where the quotient is not rounded in the wrong direction."),
("C59", "partial", ["C59_posting_partial"], "Excludes nonlinear constraints added strictly, where the code is wrong (C11_negation)."),
("C25", "proved", ["C25_weight_enforced", "C25_weight_exact"], "For all values within the current bounds; sums are unbounded integers. See also C26_translate_enforced and C26_translate_exact for reachable states."),
("C26", "proved", ["C26_clauses_enforced", "C26_clauses_exact", "C26_translate_enforced", "C26_translate_exact", "C26_translate_extends"], "For all values within the current bounds; runs that exceed the given number of iterations are excluded."),
("C27", "proved", ["C27_clause_limit", "C27_translate_limit"], ""),
("C28", "proved", ["C28_objective"], ""),
("C38", "proved", ["C38_removed", "C38_remaining"], "For every run in which the number of loop iterations given suffices."),
("C39", "proved", ["C39_direction", "C39_commit_sound", "C39_commit_complete", "C39_commit_defined", "C39_statistics"], "The meaning of a weight constraint of clingo is part of the specification."),
("C17", "proved", ["C17_propagate", "C17_order_clauses", "C17_monotone", "C17_monotone_sound", "C17_translate_monotone"], "The Boolean solver is a parameter; constraints are covered by C57."),
("C57", "partial", ["C57_run_sound_partial", "C57_top_partial", "C57_fed_partial"], "Covers all kinds of constraints. Leaves out the cases in which propagation of distinct, disjoint, and nonlinear constraints is wrong (C31_unsound, C35_unsound, C37_literal_missing, C37_wrong_bound). C57_fed_partial assumes that the literals passed to propagate are true during later calls on the same or a higher level."),
("C12", "proved", ["C12_shift", "C12_form", "C12_unchanged", "C12_reject", "C12_transform"], "Over ground literals with any interpretation of theory atoms; the relation of an atom is read from its guard."),
("C13", "proved", ["C13_distinct", "C13_content"], "Theory terms are compared before evaluation."),
("C60", "proved", ["C60_tags"], ""),
("C58", "partial", ["C58_queue_partial", "C58_negation"], "The code violates the property: removing translated constraints clears the marks of queued constraints, so that removing one of these later leaves it in the queue (C58_negation). Proved for all other sequences of calls."),
("C47", "proved", ["C47_equal", "C47_defined"], "C47_defined leaves out the sequences of calls of C58; the pointers to translated objectives are not part of the copied state."),
("C61", "proved", ["C61_enforced", "C61_exact"], "For the part of the call before the check; the check is covered by C57."),
("C62", "proved", ["C62_reports", "C62_queued"], ""),
("C63", "proved", ["C63_linear", "C63_assigned", "C63_objective", "C63_objective_assigned", "C63_check"], "The Boolean solver is a parameter (Answers): it propagates the clauses it accepts."),
("C64", "proved", ["C64_meaning", "C64_enforced", "C64_solution"], "Sequences of calls of one solve call; what the Boolean solver assigns on the top level agrees with the total assignment (EnvSound)."),
("C33", "proved", ["C33_enforced", "C33_exact", "C33_extends"], "For terms with any number of variables; the linear constraints added for new variables are part of what is posted. C33_exact assumes that facts have been integrated before."),
("C48", "partial", ["C48_bounds", "C48_propagate_partial", "C48_update", "C48_undo", "C48_negation"], "A machine version of propagation of linear constraints, in which each operation out of range is undefined behaviour, equals the one over unbounded integers if the largest value of the sum is three below the limit; missing (and false, see the negation) are sums closer to the limit. Values k+1 of order literals and the expressions of assertions are not covered."),
("C32", "partial", ["C32_check_partial", "C32_check_conflict_partial", "C32_clause_partial", "C32_negation"], "C32_check_conflict_partial: the same calls fail if the solver rejects clauses whose literals are all false. C32_check_partial: for calls to check in reachable states in which a bound of a variable of one of the two elements has changed since the last delivery, whatever other constraints and elements are queued. C32_clause_partial: for calls to propagate of the constraint in which one of the two elements is queued; the literal of the constraint may have any value. The code violates the property otherwise: elements that are fixed when the constraint is attached are not queued (C32_negation). Missing: that elements fixed later whose change has been delivered are queued until they are propagated; check on a level that has not been propagated yet."),
("C50", "proved", ["C50_value", "C50_symbols", "C50_integrated", "C50_justified"], "For all sequences of calls in which the literals or complements of order literals have been passed to propagate (clingo does this for watched literals). Facts have been integrated after each successful check (C50_integrated)."),
("C65", "partial", ["C65_decrease", "C65_solution", "C65_improvable_partial", "C65_optimal_partial"], "C65_decrease and C65_solution hold without exceptions (for costs up to the largest bound). The other two leave out the cases in which the code is wrong, as in C57 (literals of Distinct and Disjoint constraints assigned at the time of use). Total checks are followed by the report of the model without other threads in between (clasp's model lock); check_solution is set."),
("C66", "proved", ["C66_returns", "C66_conflict_final"], "Checks and decisions are left out. C66_conflict_final shows that the restriction to calls before a conflict on the top level is necessary."),
("C67", "proved", ["C67_check_ends", "C67_rounds"], "Assumes that all levels have been left when check is called on the top level of the Boolean solver (clingo calls undo before)."),
("C68", "proved", ["C68_check_returns"], "Linear constraints and objectives only; distinct, disjoint and nonlinear constraints are left out. Above the top level the theorem assumes that current bounds are justified by literals (BoundLits), order literals outside of the bounds are assigned (OutLits), literals not introduced yet are unassigned (NewLits), there are no pending facts, and that the Boolean solver does unit propagation for added clauses (Responsive)."),
("C69", "proved", ["C69_update"], "That the call returns is part of C66."),
("C70", "proved", ["C70_complete", "C70_out"], "The literals justifying bounds are assigned (BoundLits, see C50_justified), and literals outside of the domain on the top level are assigned (TopLits)."),
("C71", "partial", ["C71_parsed", "C71_handed", "C71_program_partial"], "C71_parsed and C71_handed hold for all programs. C71_program_partial leaves out nonlinear sums with several products and strict ones with a product, for which the code is wrong (C10_product_lost, C11_negation). The fresh literals of the constraint builder are numbered after those of the parser instead of interleaved with them."),
("C72", "partial", ["C72_answers_partial", "C72_kept_partial"], "Programs are those of C71_program_partial. In the second theorem, constraints over products additionally have to meet the condition of C37; single-shot; constraints are not removed or translated (see C74 for translation)."),
("C73", "proved", ["C73_enforced", "C73_kept", "C73_kept_later", "C73_objective"], "For runs of translate that report no conflict, in states reached by the operations of the solver on the top level with no pending changes, nonzero literals and coefficients, and distinct constraints informed about all bounds. C73_kept additionally assumes that no entry of an order table is the true literal (then distinct.translate posts clauses that are too strong, see C33) and that literals and variables mentioned exist. The assignment of the Boolean solver is assumed to be sound on the top level (EnvSound) for the truth assignments considered."),
("C74", "partial", ["C74_calls", "C74_solution", "C74_answers_partial", "C74_kept_partial", "C74_program_partial"], "C74_calls and C74_solution are complete for the phases set-up, one translation that reports no conflict, search. C74_answers_partial is partial as C72_answers_partial, C74_kept_partial as C57_fed_partial, and C74_program_partial as C72_kept_partial: cases are left out for which the code is wrong. The latter two also assume NoFact (see C33), that literals and variables mentioned exist, and that the variables within each term of a distinct constraint differ. Several translations interleaved with search (multi-shot solving) are not covered."),
("C75", "proved", ["C75_rounds", "C75_settled", "C75_reflected", "C75_reflected_kept", "C75_within"], "The trail is a function of the calls made that grows with them. Order literals that were dropped because they became facts are not mentioned by C75_reflected."),
("C76", "proved", ["C76_decide", "C76_agree"], "C76_agree derives the agreement above the top level from C70 and C50; literals outside of the domain on the top level are assumed to be assigned (TopLits)."),
("C77", "partial", ["C77_violated", "C77_current_partial", "C77_enforced_partial"], "The code violates the property (C77_violated, a concrete run over two solve steps): undo only marks elements as dirty, nothing queues the constraint, and translate uses the bounds recorded during search. Proved for the first solve step: recorded bounds are exact for all runs in which nothing has been undone, and the translation enforces the constraints."),
("C78", "partial", ["C78_prepared", "C78_threads_partial", "C78_watched_partial", "C78_objective_partial", "C78_calls_partial", "C78_start", "C78_search"], "Partial: it is required that constraints over distinct terms have been informed about all bounds when they are translated; this can fail in later solve steps (C77). The calls made while parsing are given; commit and the number of variables of the Boolean solver are parameters."),
("C79", "partial", ["C79_phases_partial", "C79_answers_partial", "C79_kept_partial", "C79_program_partial"], "Partial as C74 and C78: one solve step; constraints over distinct terms have been informed about all bounds when they are translated; for C79_kept_partial and C79_program_partial, the state before the translation is of the form assumed by C74."),
("C80", "partial", ["C80_ready_partial", "C80_optimal_partial", "C80_answers_partial"], "Partial as C65 and C79: one solve step, objectives that are not translated to objectives of the Boolean solver."),
("C81", "partial", ["C81_bound_partial", "C81_negation"], "The code violates the property: the queue is selected by the sign of the coefficient and not by the bound that changed (C81_negation: x <= 2 is decided for x != y with y = 2, and nothing is propagated). Proved for propagation of a constraint if the element is in the queue of the bound, for every reachable state without pending changes; uses the invariant that elements marked as waiting are queued."),
("C82", "proved", ["C82_check", "C82_conflict"], "For every reachable state in which marked constraints are queued (see C58 for the sequences of calls in which they are not) and constraints that are not marked inactive. The literal of the constraint need not be true; see C37. C82_conflict: check fails if the solver rejects false clauses; assumes that the bounds are justified by literals (C50_justified), and decisions."),
("C83", "proved", ["C83_check", "C83_conflict"], "For every reachable state in which marked constraints are queued (see C58 for the sequences of calls in which they are not)."),
]
