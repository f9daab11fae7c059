{
 "claims": [
  {
   "property": "C01",
   "status": "proved",
   "theorems": [
    "Clingcon.Props.C01_floordiv_floor",
    "Clingcon.Props.C01_floordiv_fits"
   ],
   "note": ""
  },
  {
   "property": "C02",
   "status": "partial",
   "theorems": [
    "Clingcon.Props.C02_ceildiv_not_ceil",
    "Clingcon.Props.C02_ceildiv_partial"
   ],
   "note": "The code violates the property; C02_ceildiv_not_ceil gives a counterexample, C02_ceildiv_partial the operands for which it holds."
  },
  {
   "property": "C03",
   "status": "proved",
   "theorems": [
    "Clingcon.Props.C03_safe_add",
    "Clingcon.Props.C03_safe_sub",
    "Clingcon.Props.C03_safe_mul",
    "Clingcon.Props.C03_safe_inv",
    "Clingcon.Props.C03_safe_div",
    "Clingcon.Props.C03_safe_mod",
    "Clingcon.Props.C03_no_ub"
   ],
   "note": ""
  },
  {
   "property": "C04",
   "status": "proved",
   "theorems": [
    "Clingcon.Props.C04_midpoint",
    "Clingcon.Props.C04_midpoint_eq"
   ],
   "note": ""
  },
  {
   "property": "C05",
   "status": "proved",
   "theorems": [
    "Clingcon.Props.C05_canonical",
    "Clingcon.Props.C05_covered",
    "Clingcon.Props.C05_contains",
    "Clingcon.Props.C05_contains_interval",
    "Clingcon.Props.C05_intersects",
    "Clingcon.Props.C05_enumerate",
    "Clingcon.Props.C05_extend"
   ],
   "note": ""
  },
  {
   "property": "C06",
   "status": "proved",
   "theorems": [
    "Clingcon.Props.C06_value",
    "Clingcon.Props.C06_shape",
    "Clingcon.Props.C06_range",
    "Clingcon.Props.C06_total"
   ],
   "note": ""
  },
  {
   "property": "C07",
   "status": "proved",
   "theorems": [
    "Clingcon.Props.C07_value",
    "Clingcon.Props.C07_fits",
    "Clingcon.Props.C07_total"
   ],
   "note": "Exponentiation is a parameter (it is computed by the C library)."
  },
  {
   "property": "C08",
   "status": "proved",
   "theorems": [
    "Clingcon.Props.C08_normalize",
    "Clingcon.Props.C08_total",
    "Clingcon.Props.C08_negate"
   ],
   "note": ""
  },
  {
   "property": "C09",
   "status": "proved",
   "theorems": [
    "Clingcon.Props.C09_sum",
    "Clingcon.Props.C09_diff",
    "Clingcon.Props.C09_reject"
   ],
   "note": ""
  },
  {
   "property": "C10",
   "status": "partial",
   "theorems": [
    "Clingcon.Props.C10_nsum_partial",
    "Clingcon.Props.C10_product_lost",
    "Clingcon.Props.C10_order"
   ],
   "note": "The code violates the property: a second product replaces the first one and acceptance depends on the order; the partial theorem covers accepted atoms with at most one product."
  },
  {
   "property": "C14",
   "status": "proved",
   "theorems": [
    "Clingcon.Props.C14_unquote",
    "Clingcon.Props.C14_name"
   ],
   "note": ""
  },
  {
   "property": "C15",
   "status": "proved",
   "theorems": [
    "Clingcon.Props.C15_enforced",
    "Clingcon.Props.C15_exact",
    "Clingcon.Props.C15_extends"
   ],
   "note": "For every faithful state on decision level 0; the Boolean solver is a parameter."
  },
  {
   "property": "C16",
   "status": "partial",
   "theorems": [
    "Clingcon.Props.C16_enforced_partial",
    "Clingcon.Props.C16_exact",
    "Clingcon.Props.C16_extends",
    "Clingcon.Props.C16_empty_negation"
   ],
   "note": "The code violates the property for the empty domain (C16_empty_negation); everything else is proved."
  },
  {
   "property": "C19",
   "status": "proved",
   "theorems": [
    "Clingcon.Props.C19_table"
   ],
   "note": ""
  },
  {
   "property": "C20",
   "status": "proved",
   "theorems": [
    "Clingcon.Props.C20_undo_restores_bounds",
    "Clingcon.Props.C20_check_settles"
   ],
   "note": "For every sequence of calls that meets the protocol conditions Op.pre."
  },
  {
   "property": "C21",
   "status": "proved",
   "theorems": [
    "Clingcon.Props.C21_sums_exact",
    "Clingcon.Props.C21_minimize_exact",
    "Clingcon.Props.C21_sums_pending",
    "Clingcon.Props.C21_distinct_exact"
   ],
   "note": "For every reachable state; see Op.pre for the protocol."
  },
  {
   "property": "C22",
   "status": "proved",
   "theorems": [
    "Clingcon.Props.C22_propagate_sound",
    "Clingcon.Props.C22_reachable"
   ],
   "note": "The Boolean solver is a parameter (EnvSound, EnvMono)."
  },
  {
   "property": "C23",
   "status": "proved",
   "theorems": [
    "Clingcon.Props.C23_conflict",
    "Clingcon.Props.C23_inactive",
    "Clingcon.Props.C23_check",
    "Clingcon.Props.C23_check_conflict"
   ],
   "note": ""
  },
  {
   "property": "C56",
   "status": "partial",
   "theorems": [
    "Clingcon.Props.C56_bounds_partial",
    "Clingcon.Props.C56_bound_missed"
   ],
   "note": "The code violates the property (an upper bound that is one below the current one is not derived); everything else is proved."
  },
  {
   "property": "C53",
   "status": "partial",
   "theorems": [
    "Clingcon.Props.C53_program_partial",
    "Clingcon.Props.C53_agree"
   ],
   "note": "Programs with more than one product in a nonlinear sum are excluded because the code is wrong for them (C10_product_lost)."
  },
  {
   "property": "C54",
   "status": "proved",
   "theorems": [
    "Clingcon.Props.C54_objective"
   ],
   "note": ""
  },
  {
   "property": "C55",
   "status": "proved",
   "theorems": [
    "Clingcon.Props.C55_show"
   ],
   "note": ""
  },
  {
   "property": "C18",
   "status": "proved",
   "theorems": [
    "Clingcon.Props.C18_links",
    "Clingcon.Props.C18_entries"
   ],
   "note": "For every reachable state; the Boolean solver is a parameter."
  },
  {
   "property": "C24",
   "status": "proved",
   "theorems": [
    "Clingcon.Props.C24_check_full",
    "Clingcon.Props.C24_accepted",
    "Clingcon.Props.C24_accepted_run"
   ],
   "note": "C24_accepted assumes that the order literals have been taken into account; C24_accepted_run derives this for sequences of calls."
  },
  {
   "property": "C49",
   "status": "proved",
   "theorems": [
    "Clingcon.Props.C49_split",
    "Clingcon.Props.C49_terminates"
   ],
   "note": ""
  },
  {
   "property": "C52",
   "status": "proved",
   "theorems": [
    "Clingcon.Props.C52_disjoint_check"
   ],
   "note": ""
  },
  {
   "property": "C29",
   "status": "proved",
   "theorems": [
    "Clingcon.Props.C29_monotone",
    "Clingcon.Props.C29_decrease",
    "Clingcon.Props.C29_least",
    "Clingcon.Props.C29_check"
   ],
   "note": "Reports of threads are atomic, in any order."
  },
  {
   "property": "C30",
   "status": "partial",
   "theorems": [
    "Clingcon.Props.C30_law",
    "Clingcon.Props.C30_partial",
    "Clingcon.Props.C30_negation"
   ],
   "note": "The code violates the property: the constant part of the objective changes its sign in each step (C30_negation, exact law C30_law)."
  },
  {
   "property": "C40",
   "status": "proved",
   "theorems": [
    "Clingcon.Props.C40_inverse",
    "Clingcon.Props.C40_stable",
    "Clingcon.Props.C40_add",
    "Clingcon.Props.C40_aux"
   ],
   "note": ""
  },
  {
   "property": "C41",
   "status": "partial",
   "theorems": [
    "Clingcon.Props.C41_partial",
    "Clingcon.Props.C41_gap"
   ],
   "note": "The code violates the property: indices of auxiliary variables are visited (C41_gap); completeness, order and termination are proved."
  },
  {
   "property": "C42",
   "status": "proved",
   "theorems": [
    "Clingcon.Props.C42_shown"
   ],
   "note": ""
  },
  {
   "property": "C43",
   "status": "proved",
   "theorems": [
    "Clingcon.Props.C43_settings",
    "Clingcon.Props.C43_repeated",
    "Clingcon.Props.C43_order"
   ],
   "note": ""
  },
  {
   "property": "C44",
   "status": "proved",
   "theorems": [
    "Clingcon.Props.C44_last"
   ],
   "note": ""
  },
  {
   "property": "C45",
   "status": "partial",
   "theorems": [
    "Clingcon.Props.C45_exact_partial",
    "Clingcon.Props.C45_bounds",
    "Clingcon.Props.C45_range",
    "Clingcon.Props.C45_unsigned",
    "Clingcon.Props.C45_bool",
    "Clingcon.Props.C45_negation"
   ],
   "note": "The code violates the property: prefixes, the empty string and negative numbers are accepted in places (C45_negation)."
  },
  {
   "property": "C46",
   "status": "proved",
   "theorems": [
    "Clingcon.Props.C46_sums"
   ],
   "note": "Counters are 64-bit and wrap around."
  },
  {
   "property": "C51",
   "status": "partial",
   "theorems": [
    "Clingcon.Props.C51_negation",
    "Clingcon.Props.C51_partial"
   ],
   "note": "The code violates the property: the propagator record is static (C51_negation)."
  },
  {
   "property": "C11",
   "status": "partial",
   "theorems": [
    "Clingcon.Props.C11_partial",
    "Clingcon.Props.C11_law",
    "Clingcon.Props.C11_negation"
   ],
   "note": "The code violates the property: in strict mode with one term the literal is forced to be false (C11_negation, exact law C11_law); the other cases are proved."
  },
  {
   "property": "C31",
   "status": "partial",
   "theorems": [
    "Clingcon.Props.C31_propagate_sound_partial",
    "Clingcon.Props.C31_unsound"
   ],
   "note": "Proved for calls in which the literal of the constraint is true at the start or is not fixed during the call. The code violates the property otherwise: the literal is left out of clauses if it is fixed, whatever its value (C31_unsound)."
  },
  {
   "property": "C34",
   "status": "proved",
   "theorems": [
    "Clingcon.Props.C34_distinct",
    "Clingcon.Props.C34_pairs"
   ],
   "note": ""
  },
  {
   "property": "C35",
   "status": "partial",
   "theorems": [
    "Clingcon.Props.C35_propagate_sound_partial",
    "Clingcon.Props.C35_unsound"
   ],
   "note": "Proved for calls in which the literal of the constraint is true at the start or is not fixed during the call, and the current bounds are justified by literals. The code violates the property otherwise: the literal is left out of clauses if it is fixed, whatever its value (C35_unsound)."
  },
  {
   "property": "C36",
   "status": "proved",
   "theorems": [
    "Clingcon.Props.C36_disjoint"
   ],
   "note": ""
  },
  {
   "property": "C37",
   "status": "partial",
   "theorems": [
    "Clingcon.Props.C37_propagate_sound_partial",
    "Clingcon.Props.C37_literal_missing",
    "Clingcon.Props.C37_wrong_bound"
   ],
   "note": "The code violates the property: clauses do not mention the literal of the constraint (C37_literal_missing) and a bound divided by a negative coefficient is rounded in the wrong direction (C37_wrong_bound). Proved for constraints that hold unconditionally and where the quotient is not rounded in the wrong direction."
  },
  {
   "property": "C59",
   "status": "partial",
   "theorems": [
    "Clingcon.Props.C59_posting_partial"
   ],
   "note": "Excludes nonlinear constraints added strictly, where the code is wrong (C11_negation)."
  },
  {
   "property": "C25",
   "status": "proved",
   "theorems": [
    "Clingcon.Props.C25_weight_enforced",
    "Clingcon.Props.C25_weight_exact"
   ],
   "note": "For all values within the current bounds; sums are unbounded integers. See also C26_translate_enforced and C26_translate_exact for reachable states."
  },
  {
   "property": "C26",
   "status": "proved",
   "theorems": [
    "Clingcon.Props.C26_clauses_enforced",
    "Clingcon.Props.C26_clauses_exact",
    "Clingcon.Props.C26_translate_enforced",
    "Clingcon.Props.C26_translate_exact",
    "Clingcon.Props.C26_translate_extends"
   ],
   "note": "For all values within the current bounds; runs that exceed the given number of iterations are excluded."
  },
  {
   "property": "C27",
   "status": "proved",
   "theorems": [
    "Clingcon.Props.C27_clause_limit",
    "Clingcon.Props.C27_translate_limit"
   ],
   "note": ""
  },
  {
   "property": "C28",
   "status": "proved",
   "theorems": [
    "Clingcon.Props.C28_objective"
   ],
   "note": ""
  },
  {
   "property": "C38",
   "status": "proved",
   "theorems": [
    "Clingcon.Props.C38_removed",
    "Clingcon.Props.C38_remaining"
   ],
   "note": "For every run in which the number of loop iterations given suffices."
  },
  {
   "property": "C39",
   "status": "proved",
   "theorems": [
    "Clingcon.Props.C39_direction",
    "Clingcon.Props.C39_commit_sound",
    "Clingcon.Props.C39_commit_complete",
    "Clingcon.Props.C39_commit_defined",
    "Clingcon.Props.C39_statistics"
   ],
   "note": "The meaning of a weight constraint of clingo is part of the specification."
  },
  {
   "property": "C17",
   "status": "proved",
   "theorems": [
    "Clingcon.Props.C17_propagate",
    "Clingcon.Props.C17_order_clauses",
    "Clingcon.Props.C17_monotone",
    "Clingcon.Props.C17_monotone_sound",
    "Clingcon.Props.C17_translate_monotone"
   ],
   "note": "The Boolean solver is a parameter; constraints are covered by C57."
  },
  {
   "property": "C57",
   "status": "partial",
   "theorems": [
    "Clingcon.Props.C57_run_sound_partial",
    "Clingcon.Props.C57_top_partial",
    "Clingcon.Props.C57_fed_partial"
   ],
   "note": "Covers all kinds of constraints. Leaves out the cases in which propagation of distinct, disjoint, and nonlinear constraints is wrong (C31_unsound, C35_unsound, C37_literal_missing, C37_wrong_bound). C57_fed_partial assumes that the literals passed to propagate are true during later calls on the same or a higher level."
  },
  {
   "property": "C12",
   "status": "proved",
   "theorems": [
    "Clingcon.Props.C12_shift",
    "Clingcon.Props.C12_form",
    "Clingcon.Props.C12_unchanged",
    "Clingcon.Props.C12_reject",
    "Clingcon.Props.C12_transform"
   ],
   "note": "Over ground literals with any interpretation of theory atoms; the relation of an atom is read from its guard."
  },
  {
   "property": "C13",
   "status": "proved",
   "theorems": [
    "Clingcon.Props.C13_distinct",
    "Clingcon.Props.C13_content"
   ],
   "note": "Theory terms are compared before evaluation."
  },
  {
   "property": "C60",
   "status": "proved",
   "theorems": [
    "Clingcon.Props.C60_tags"
   ],
   "note": ""
  },
  {
   "property": "C58",
   "status": "partial",
   "theorems": [
    "Clingcon.Props.C58_queue_partial",
    "Clingcon.Props.C58_negation"
   ],
   "note": "The code violates the property: removing translated constraints clears the marks of queued constraints, so that removing one of these later leaves it in the queue (C58_negation). Proved for all other sequences of calls."
  },
  {
   "property": "C47",
   "status": "proved",
   "theorems": [
    "Clingcon.Props.C47_equal",
    "Clingcon.Props.C47_defined"
   ],
   "note": "C47_defined leaves out the sequences of calls of C58; the pointers to translated objectives are not part of the copied state."
  },
  {
   "property": "C61",
   "status": "proved",
   "theorems": [
    "Clingcon.Props.C61_enforced",
    "Clingcon.Props.C61_exact"
   ],
   "note": "For the part of the call before the check; the check is covered by C57."
  },
  {
   "property": "C62",
   "status": "proved",
   "theorems": [
    "Clingcon.Props.C62_reports",
    "Clingcon.Props.C62_queued"
   ],
   "note": ""
  },
  {
   "property": "C63",
   "status": "proved",
   "theorems": [
    "Clingcon.Props.C63_linear",
    "Clingcon.Props.C63_assigned",
    "Clingcon.Props.C63_objective",
    "Clingcon.Props.C63_objective_assigned",
    "Clingcon.Props.C63_check"
   ],
   "note": "The Boolean solver is a parameter (Answers): it propagates the clauses it accepts."
  },
  {
   "property": "C64",
   "status": "proved",
   "theorems": [
    "Clingcon.Props.C64_meaning",
    "Clingcon.Props.C64_enforced",
    "Clingcon.Props.C64_solution"
   ],
   "note": "Sequences of calls of one solve call; what the Boolean solver assigns on the top level agrees with the total assignment (EnvSound)."
  },
  {
   "property": "C33",
   "status": "proved",
   "theorems": [
    "Clingcon.Props.C33_enforced",
    "Clingcon.Props.C33_exact",
    "Clingcon.Props.C33_extends"
   ],
   "note": "For terms with any number of variables; the linear constraints added for new variables are part of what is posted. C33_exact assumes that facts have been integrated before."
  },
  {
   "property": "C48",
   "status": "partial",
   "theorems": [
    "Clingcon.Props.C48_bounds",
    "Clingcon.Props.C48_propagate_partial",
    "Clingcon.Props.C48_update",
    "Clingcon.Props.C48_undo",
    "Clingcon.Props.C48_negation"
   ],
   "note": "A machine version of propagation of linear constraints, in which each operation out of range is undefined behaviour, equals the one over unbounded integers if the largest value of the sum is three below the limit; missing (and false, see the negation) are sums closer to the limit. Values k+1 of order literals and the expressions of assertions are not covered."
  },
  {
   "property": "C32",
   "status": "partial",
   "theorems": [
    "Clingcon.Props.C32_check_partial",
    "Clingcon.Props.C32_check_conflict_partial",
    "Clingcon.Props.C32_clause_partial",
    "Clingcon.Props.C32_negation"
   ],
   "note": "C32_check_conflict_partial: the same calls fail if the solver rejects clauses whose literals are all false. C32_check_partial: for calls to check in reachable states in which a bound of a variable of one of the two elements has changed since the last delivery, whatever other constraints and elements are queued. C32_clause_partial: for calls to propagate of the constraint in which one of the two elements is queued; the literal of the constraint may have any value. The code violates the property otherwise: elements that are fixed when the constraint is attached are not queued (C32_negation). Missing: that elements fixed later whose change has been delivered are queued until they are propagated; check on a level that has not been propagated yet."
  },
  {
   "property": "C50",
   "status": "proved",
   "theorems": [
    "Clingcon.Props.C50_value",
    "Clingcon.Props.C50_symbols",
    "Clingcon.Props.C50_integrated",
    "Clingcon.Props.C50_justified"
   ],
   "note": "For all sequences of calls in which the literals or complements of order literals have been passed to propagate (clingo does this for watched literals). Facts have been integrated after each successful check (C50_integrated)."
  },
  {
   "property": "C65",
   "status": "partial",
   "theorems": [
    "Clingcon.Props.C65_decrease",
    "Clingcon.Props.C65_solution",
    "Clingcon.Props.C65_improvable_partial",
    "Clingcon.Props.C65_optimal_partial"
   ],
   "note": "C65_decrease and C65_solution hold without exceptions (for costs up to the largest bound). The other two leave out the cases in which the code is wrong, as in C57 (literals of Distinct and Disjoint constraints assigned at the time of use). Total checks are followed by the report of the model without other threads in between (clasp's model lock); check_solution is set."
  },
  {
   "property": "C66",
   "status": "proved",
   "theorems": [
    "Clingcon.Props.C66_returns",
    "Clingcon.Props.C66_conflict_final"
   ],
   "note": "Checks and decisions are left out. C66_conflict_final shows that the restriction to calls before a conflict on the top level is necessary."
  },
  {
   "property": "C67",
   "status": "proved",
   "theorems": [
    "Clingcon.Props.C67_check_ends",
    "Clingcon.Props.C67_rounds"
   ],
   "note": "Assumes that all levels have been left when check is called on the top level of the Boolean solver (clingo calls undo before)."
  },
  {
   "property": "C68",
   "status": "proved",
   "theorems": [
    "Clingcon.Props.C68_check_returns"
   ],
   "note": "Linear constraints and objectives only; distinct, disjoint and nonlinear constraints are left out. Above the top level the theorem assumes that current bounds are justified by literals (BoundLits), order literals outside of the bounds are assigned (OutLits), literals not introduced yet are unassigned (NewLits), there are no pending facts, and that the Boolean solver does unit propagation for added clauses (Responsive)."
  },
  {
   "property": "C69",
   "status": "proved",
   "theorems": [
    "Clingcon.Props.C69_update"
   ],
   "note": "That the call returns is part of C66."
  },
  {
   "property": "C70",
   "status": "proved",
   "theorems": [
    "Clingcon.Props.C70_complete",
    "Clingcon.Props.C70_out"
   ],
   "note": "The literals justifying bounds are assigned (BoundLits, see C50_justified), and literals outside of the domain on the top level are assigned (TopLits)."
  },
  {
   "property": "C71",
   "status": "partial",
   "theorems": [
    "Clingcon.Props.C71_parsed",
    "Clingcon.Props.C71_handed",
    "Clingcon.Props.C71_program_partial"
   ],
   "note": "C71_parsed and C71_handed hold for all programs. C71_program_partial leaves out nonlinear sums with several products and strict ones with a product, for which the code is wrong (C10_product_lost, C11_negation). The fresh literals of the constraint builder are numbered after those of the parser instead of interleaved with them."
  },
  {
   "property": "C72",
   "status": "partial",
   "theorems": [
    "Clingcon.Props.C72_answers_partial",
    "Clingcon.Props.C72_kept_partial"
   ],
   "note": "Programs are those of C71_program_partial. In the second theorem, constraints over products additionally have to meet the condition of C37; single-shot; constraints are not removed or translated (see C74 for translation)."
  },
  {
   "property": "C73",
   "status": "proved",
   "theorems": [
    "Clingcon.Props.C73_enforced",
    "Clingcon.Props.C73_kept",
    "Clingcon.Props.C73_kept_later",
    "Clingcon.Props.C73_objective"
   ],
   "note": "For runs of translate that report no conflict, in states reached by the operations of the solver on the top level with no pending changes, nonzero literals and coefficients, and distinct constraints informed about all bounds. C73_kept additionally assumes that no entry of an order table is the true literal (then distinct.translate posts clauses that are too strong, see C33) and that literals and variables mentioned exist. The assignment of the Boolean solver is assumed to be sound on the top level (EnvSound) for the truth assignments considered."
  },
  {
   "property": "C74",
   "status": "partial",
   "theorems": [
    "Clingcon.Props.C74_calls",
    "Clingcon.Props.C74_solution",
    "Clingcon.Props.C74_answers_partial",
    "Clingcon.Props.C74_kept_partial",
    "Clingcon.Props.C74_program_partial"
   ],
   "note": "C74_calls and C74_solution are complete for the phases set-up, one translation that reports no conflict, search. C74_answers_partial is partial as C72_answers_partial, C74_kept_partial as C57_fed_partial, and C74_program_partial as C72_kept_partial: cases are left out for which the code is wrong. The latter two also assume NoFact (see C33), that literals and variables mentioned exist, and that the variables within each term of a distinct constraint differ. Several translations interleaved with search (multi-shot solving) are not covered."
  },
  {
   "property": "C75",
   "status": "proved",
   "theorems": [
    "Clingcon.Props.C75_rounds",
    "Clingcon.Props.C75_settled",
    "Clingcon.Props.C75_reflected",
    "Clingcon.Props.C75_reflected_kept",
    "Clingcon.Props.C75_within"
   ],
   "note": "The trail is a function of the calls made that grows with them. Order literals that were dropped because they became facts are not mentioned by C75_reflected."
  },
  {
   "property": "C76",
   "status": "proved",
   "theorems": [
    "Clingcon.Props.C76_decide",
    "Clingcon.Props.C76_agree"
   ],
   "note": "C76_agree derives the agreement above the top level from C70 and C50; literals outside of the domain on the top level are assumed to be assigned (TopLits)."
  },
  {
   "property": "C77",
   "status": "partial",
   "theorems": [
    "Clingcon.Props.C77_violated",
    "Clingcon.Props.C77_current_partial",
    "Clingcon.Props.C77_enforced_partial"
   ],
   "note": "The code violates the property (C77_violated, a concrete run over two solve steps): undo only marks elements as dirty, nothing queues the constraint, and translate uses the bounds recorded during search. Proved for the first solve step: recorded bounds are exact for all runs in which nothing has been undone, and the translation enforces the constraints."
  },
  {
   "property": "C78",
   "status": "partial",
   "theorems": [
    "Clingcon.Props.C78_prepared",
    "Clingcon.Props.C78_threads_partial",
    "Clingcon.Props.C78_watched_partial",
    "Clingcon.Props.C78_objective_partial",
    "Clingcon.Props.C78_calls_partial",
    "Clingcon.Props.C78_start",
    "Clingcon.Props.C78_search"
   ],
   "note": "Partial: it is required that constraints over distinct terms have been informed about all bounds when they are translated; this can fail in later solve steps (C77). The calls made while parsing are given; commit and the number of variables of the Boolean solver are parameters."
  },
  {
   "property": "C79",
   "status": "partial",
   "theorems": [
    "Clingcon.Props.C79_phases_partial",
    "Clingcon.Props.C79_answers_partial",
    "Clingcon.Props.C79_kept_partial",
    "Clingcon.Props.C79_program_partial"
   ],
   "note": "Partial as C74 and C78: one solve step; constraints over distinct terms have been informed about all bounds when they are translated; for C79_kept_partial and C79_program_partial, the state before the translation is of the form assumed by C74."
  },
  {
   "property": "C80",
   "status": "partial",
   "theorems": [
    "Clingcon.Props.C80_ready_partial",
    "Clingcon.Props.C80_optimal_partial",
    "Clingcon.Props.C80_answers_partial"
   ],
   "note": "Partial as C65 and C79: one solve step, objectives that are not translated to objectives of the Boolean solver."
  },
  {
   "property": "C81",
   "status": "partial",
   "theorems": [
    "Clingcon.Props.C81_bound_partial",
    "Clingcon.Props.C81_negation"
   ],
   "note": "The code violates the property: the queue is selected by the sign of the coefficient and not by the bound that changed (C81_negation: x <= 2 is decided for x != y with y = 2, and nothing is propagated). Proved for propagation of a constraint if the element is in the queue of the bound, for every reachable state without pending changes; uses the invariant that elements marked as waiting are queued."
  },
  {
   "property": "C82",
   "status": "proved",
   "theorems": [
    "Clingcon.Props.C82_check",
    "Clingcon.Props.C82_conflict"
   ],
   "note": "For every reachable state in which marked constraints are queued (see C58 for the sequences of calls in which they are not) and constraints that are not marked inactive. The literal of the constraint need not be true; see C37. C82_conflict: check fails if the solver rejects false clauses; assumes that the bounds are justified by literals (C50_justified), and decisions."
  },
  {
   "property": "C83",
   "status": "proved",
   "theorems": [
    "Clingcon.Props.C83_check",
    "Clingcon.Props.C83_conflict"
   ],
   "note": "For every reachable state in which marked constraints are queued (see C58 for the sequences of calls in which they are not)."
  }
 ]
}
