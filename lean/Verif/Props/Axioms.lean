import Verif.Props.Answers
import Verif.Props.Atoms
import Verif.Props.Attach
import Verif.Props.Chain
import Verif.Props.CheckFull
import Verif.Props.ConBuilder
import Verif.Props.Copy
import Verif.Props.Cover
import Verif.Props.Decide
import Verif.Props.Disjoint
import Verif.Props.Distinct
import Verif.Props.DistinctCheck
import Verif.Props.DistinctDetect
import Verif.Props.DistinctTranslate
import Verif.Props.Enforced
import Verif.Props.FedSound
import Verif.Props.Final
import Verif.Props.First
import Verif.Props.FirstKept
import Verif.Props.FirstOpt
import Verif.Props.Given
import Verif.Props.Handed
import Verif.Props.Init
import Verif.Props.InitClause
import Verif.Props.IntervalSet
import Verif.Props.Levels
import Verif.Props.Nonlinear
import Verif.Props.NonlinearCheck
import Verif.Props.Normalize
import Verif.Props.ObjectiveCheck
import Verif.Props.Optimize
import Verif.Props.Options
import Verif.Props.OrderClauses
import Verif.Props.Overflow
import Verif.Props.Program
import Verif.Props.Propagator
import Verif.Props.Queue
import Verif.Props.Reports
import Verif.Props.Rounds
import Verif.Props.RunSound
import Verif.Props.Safe
import Verif.Props.SafeCheck
import Verif.Props.Simplified
import Verif.Props.Simplify
import Verif.Props.Solutions
import Verif.Props.Stale
import Verif.Props.Sum
import Verif.Props.SumCheck
import Verif.Props.Terms
import Verif.Props.Transform
import Verif.Props.Translate
import Verif.Props.TranslateCase
import Verif.Props.TranslateKept
import Verif.Props.TranslateLoop
import Verif.Props.TranslateRun
import Verif.Props.TranslateSolutions
import Verif.Props.Update
import Verif.Props.Util
import Verif.Props.VarState

/-! Axioms of every theorem listed in MANIFEST.json (generated by tools/manifest.py). -/

#print axioms Clingcon.Props.C01_floordiv_floor
#print axioms Clingcon.Props.C01_floordiv_fits
#print axioms Clingcon.Props.C02_ceildiv_not_ceil
#print axioms Clingcon.Props.C02_ceildiv_partial
#print axioms Clingcon.Props.C03_safe_add
#print axioms Clingcon.Props.C03_safe_sub
#print axioms Clingcon.Props.C03_safe_mul
#print axioms Clingcon.Props.C03_safe_inv
#print axioms Clingcon.Props.C03_safe_div
#print axioms Clingcon.Props.C03_safe_mod
#print axioms Clingcon.Props.C03_no_ub
#print axioms Clingcon.Props.C04_midpoint
#print axioms Clingcon.Props.C04_midpoint_eq
#print axioms Clingcon.Props.C05_canonical
#print axioms Clingcon.Props.C05_covered
#print axioms Clingcon.Props.C05_contains
#print axioms Clingcon.Props.C05_contains_interval
#print axioms Clingcon.Props.C05_intersects
#print axioms Clingcon.Props.C05_enumerate
#print axioms Clingcon.Props.C05_extend
#print axioms Clingcon.Props.C06_value
#print axioms Clingcon.Props.C06_shape
#print axioms Clingcon.Props.C06_range
#print axioms Clingcon.Props.C06_total
#print axioms Clingcon.Props.C07_value
#print axioms Clingcon.Props.C07_fits
#print axioms Clingcon.Props.C07_total
#print axioms Clingcon.Props.C08_normalize
#print axioms Clingcon.Props.C08_total
#print axioms Clingcon.Props.C08_negate
#print axioms Clingcon.Props.C09_sum
#print axioms Clingcon.Props.C09_diff
#print axioms Clingcon.Props.C09_reject
#print axioms Clingcon.Props.C10_nsum_partial
#print axioms Clingcon.Props.C10_product_lost
#print axioms Clingcon.Props.C10_order
#print axioms Clingcon.Props.C14_unquote
#print axioms Clingcon.Props.C14_name
#print axioms Clingcon.Props.C15_enforced
#print axioms Clingcon.Props.C15_exact
#print axioms Clingcon.Props.C15_extends
#print axioms Clingcon.Props.C16_enforced_partial
#print axioms Clingcon.Props.C16_exact
#print axioms Clingcon.Props.C16_extends
#print axioms Clingcon.Props.C16_empty_negation
#print axioms Clingcon.Props.C19_table
#print axioms Clingcon.Props.C20_undo_restores_bounds
#print axioms Clingcon.Props.C20_check_settles
#print axioms Clingcon.Props.C21_sums_exact
#print axioms Clingcon.Props.C21_minimize_exact
#print axioms Clingcon.Props.C21_sums_pending
#print axioms Clingcon.Props.C21_distinct_exact
#print axioms Clingcon.Props.C22_propagate_sound
#print axioms Clingcon.Props.C22_reachable
#print axioms Clingcon.Props.C23_conflict
#print axioms Clingcon.Props.C23_inactive
#print axioms Clingcon.Props.C23_check
#print axioms Clingcon.Props.C23_check_conflict
#print axioms Clingcon.Props.C56_bounds_partial
#print axioms Clingcon.Props.C56_bound_missed
#print axioms Clingcon.Props.C53_program_partial
#print axioms Clingcon.Props.C53_agree
#print axioms Clingcon.Props.C54_objective
#print axioms Clingcon.Props.C55_show
#print axioms Clingcon.Props.C18_links
#print axioms Clingcon.Props.C18_entries
#print axioms Clingcon.Props.C24_check_full
#print axioms Clingcon.Props.C24_accepted
#print axioms Clingcon.Props.C24_accepted_run
#print axioms Clingcon.Props.C49_split
#print axioms Clingcon.Props.C49_terminates
#print axioms Clingcon.Props.C52_disjoint_check
#print axioms Clingcon.Props.C29_monotone
#print axioms Clingcon.Props.C29_decrease
#print axioms Clingcon.Props.C29_least
#print axioms Clingcon.Props.C29_check
#print axioms Clingcon.Props.C30_law
#print axioms Clingcon.Props.C30_partial
#print axioms Clingcon.Props.C30_negation
#print axioms Clingcon.Props.C40_inverse
#print axioms Clingcon.Props.C40_stable
#print axioms Clingcon.Props.C40_add
#print axioms Clingcon.Props.C40_aux
#print axioms Clingcon.Props.C41_partial
#print axioms Clingcon.Props.C41_gap
#print axioms Clingcon.Props.C42_shown
#print axioms Clingcon.Props.C43_settings
#print axioms Clingcon.Props.C43_repeated
#print axioms Clingcon.Props.C43_order
#print axioms Clingcon.Props.C44_last
#print axioms Clingcon.Props.C45_exact_partial
#print axioms Clingcon.Props.C45_bounds
#print axioms Clingcon.Props.C45_range
#print axioms Clingcon.Props.C45_unsigned
#print axioms Clingcon.Props.C45_bool
#print axioms Clingcon.Props.C45_negation
#print axioms Clingcon.Props.C46_sums
#print axioms Clingcon.Props.C51_negation
#print axioms Clingcon.Props.C51_partial
#print axioms Clingcon.Props.C11_partial
#print axioms Clingcon.Props.C11_law
#print axioms Clingcon.Props.C11_negation
#print axioms Clingcon.Props.C31_propagate_sound_partial
#print axioms Clingcon.Props.C31_unsound
#print axioms Clingcon.Props.C34_distinct
#print axioms Clingcon.Props.C34_pairs
#print axioms Clingcon.Props.C35_propagate_sound_partial
#print axioms Clingcon.Props.C35_unsound
#print axioms Clingcon.Props.C36_disjoint
#print axioms Clingcon.Props.C37_propagate_sound_partial
#print axioms Clingcon.Props.C37_literal_missing
#print axioms Clingcon.Props.C37_wrong_bound
#print axioms Clingcon.Props.C59_posting_partial
#print axioms Clingcon.Props.C25_weight_enforced
#print axioms Clingcon.Props.C25_weight_exact
#print axioms Clingcon.Props.C26_clauses_enforced
#print axioms Clingcon.Props.C26_clauses_exact
#print axioms Clingcon.Props.C26_translate_enforced
#print axioms Clingcon.Props.C26_translate_exact
#print axioms Clingcon.Props.C26_translate_extends
#print axioms Clingcon.Props.C27_clause_limit
#print axioms Clingcon.Props.C27_translate_limit
#print axioms Clingcon.Props.C28_objective
#print axioms Clingcon.Props.C38_removed
#print axioms Clingcon.Props.C38_remaining
#print axioms Clingcon.Props.C39_direction
#print axioms Clingcon.Props.C39_commit_sound
#print axioms Clingcon.Props.C39_commit_complete
#print axioms Clingcon.Props.C39_commit_defined
#print axioms Clingcon.Props.C39_statistics
#print axioms Clingcon.Props.C17_propagate
#print axioms Clingcon.Props.C17_order_clauses
#print axioms Clingcon.Props.C17_monotone
#print axioms Clingcon.Props.C17_monotone_sound
#print axioms Clingcon.Props.C17_translate_monotone
#print axioms Clingcon.Props.C57_run_sound_partial
#print axioms Clingcon.Props.C57_top_partial
#print axioms Clingcon.Props.C57_fed_partial
#print axioms Clingcon.Props.C12_shift
#print axioms Clingcon.Props.C12_form
#print axioms Clingcon.Props.C12_unchanged
#print axioms Clingcon.Props.C12_reject
#print axioms Clingcon.Props.C12_transform
#print axioms Clingcon.Props.C13_distinct
#print axioms Clingcon.Props.C13_content
#print axioms Clingcon.Props.C60_tags
#print axioms Clingcon.Props.C58_queue_partial
#print axioms Clingcon.Props.C58_negation
#print axioms Clingcon.Props.C47_equal
#print axioms Clingcon.Props.C47_defined
#print axioms Clingcon.Props.C61_enforced
#print axioms Clingcon.Props.C61_exact
#print axioms Clingcon.Props.C62_reports
#print axioms Clingcon.Props.C62_queued
#print axioms Clingcon.Props.C63_linear
#print axioms Clingcon.Props.C63_assigned
#print axioms Clingcon.Props.C63_objective
#print axioms Clingcon.Props.C63_objective_assigned
#print axioms Clingcon.Props.C63_check
#print axioms Clingcon.Props.C64_meaning
#print axioms Clingcon.Props.C64_enforced
#print axioms Clingcon.Props.C64_solution
#print axioms Clingcon.Props.C33_enforced
#print axioms Clingcon.Props.C33_exact
#print axioms Clingcon.Props.C33_extends
#print axioms Clingcon.Props.C48_bounds
#print axioms Clingcon.Props.C48_propagate_partial
#print axioms Clingcon.Props.C48_update
#print axioms Clingcon.Props.C48_undo
#print axioms Clingcon.Props.C48_negation
#print axioms Clingcon.Props.C32_check_partial
#print axioms Clingcon.Props.C32_check_conflict_partial
#print axioms Clingcon.Props.C32_clause_partial
#print axioms Clingcon.Props.C32_negation
#print axioms Clingcon.Props.C50_value
#print axioms Clingcon.Props.C50_symbols
#print axioms Clingcon.Props.C50_integrated
#print axioms Clingcon.Props.C50_justified
#print axioms Clingcon.Props.C65_decrease
#print axioms Clingcon.Props.C65_solution
#print axioms Clingcon.Props.C65_improvable_partial
#print axioms Clingcon.Props.C65_optimal_partial
#print axioms Clingcon.Props.C66_returns
#print axioms Clingcon.Props.C66_conflict_final
#print axioms Clingcon.Props.C67_check_ends
#print axioms Clingcon.Props.C67_rounds
#print axioms Clingcon.Props.C68_check_returns
#print axioms Clingcon.Props.C69_update
#print axioms Clingcon.Props.C70_complete
#print axioms Clingcon.Props.C70_out
#print axioms Clingcon.Props.C71_parsed
#print axioms Clingcon.Props.C71_handed
#print axioms Clingcon.Props.C71_program_partial
#print axioms Clingcon.Props.C72_answers_partial
#print axioms Clingcon.Props.C72_kept_partial
#print axioms Clingcon.Props.C73_enforced
#print axioms Clingcon.Props.C73_kept
#print axioms Clingcon.Props.C73_kept_later
#print axioms Clingcon.Props.C73_objective
#print axioms Clingcon.Props.C74_calls
#print axioms Clingcon.Props.C74_solution
#print axioms Clingcon.Props.C74_answers_partial
#print axioms Clingcon.Props.C74_kept_partial
#print axioms Clingcon.Props.C74_program_partial
#print axioms Clingcon.Props.C75_rounds
#print axioms Clingcon.Props.C75_settled
#print axioms Clingcon.Props.C75_reflected
#print axioms Clingcon.Props.C75_reflected_kept
#print axioms Clingcon.Props.C75_within
#print axioms Clingcon.Props.C76_decide
#print axioms Clingcon.Props.C76_agree
#print axioms Clingcon.Props.C77_violated
#print axioms Clingcon.Props.C77_current_partial
#print axioms Clingcon.Props.C77_enforced_partial
#print axioms Clingcon.Props.C78_prepared
#print axioms Clingcon.Props.C78_threads_partial
#print axioms Clingcon.Props.C78_watched_partial
#print axioms Clingcon.Props.C78_objective_partial
#print axioms Clingcon.Props.C78_calls_partial
#print axioms Clingcon.Props.C78_start
#print axioms Clingcon.Props.C78_search
#print axioms Clingcon.Props.C79_phases_partial
#print axioms Clingcon.Props.C79_answers_partial
#print axioms Clingcon.Props.C79_kept_partial
#print axioms Clingcon.Props.C79_program_partial
#print axioms Clingcon.Props.C80_ready_partial
#print axioms Clingcon.Props.C80_optimal_partial
#print axioms Clingcon.Props.C80_answers_partial
#print axioms Clingcon.Props.C81_bound_partial
#print axioms Clingcon.Props.C81_negation
#print axioms Clingcon.Props.C82_check
#print axioms Clingcon.Props.C82_conflict
#print axioms Clingcon.Props.C83_check
#print axioms Clingcon.Props.C83_conflict
