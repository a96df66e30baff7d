{
 "claims": [
  {
   "property": "C01",
   "status": "proved",
   "theorems": [
    "Yaga.C01_negation",
    "Yaga.C01_order",
    "Yaga.C01_adjacent",
    "Yaga.C01_no_overflow",
    "Yaga.C01_variable_order"
   ],
   "note": ""
  },
  {
   "property": "C02",
   "status": "proved",
   "theorems": [
    "Yaga.C02_literal",
    "Yaga.C02_clause",
    "Yaga.C02_stable"
   ],
   "note": ""
  },
  {
   "property": "C03",
   "status": "proved",
   "theorems": [
    "Yaga.C03_trail_bookkeeping"
   ],
   "note": ""
  },
  {
   "property": "C04",
   "status": "proved",
   "theorems": [
    "Yaga.C04_backtrack_exact",
    "Yaga.C04_backtrack_undoes"
   ],
   "note": ""
  },
  {
   "property": "C05",
   "status": "proved",
   "theorems": [
    "Yaga.C05_learned_clause_implied",
    "Yaga.C05_learned_clause_entailed"
   ],
   "note": ""
  },
  {
   "property": "C06",
   "status": "proved",
   "theorems": [
    "Yaga.C06_backjump_ready",
    "Yaga.C06_needs_tight"
   ],
   "note": ""
  },
  {
   "property": "C07",
   "status": "proved",
   "theorems": [
    "Yaga.C07_minimize_sound",
    "Yaga.C07_minimize_keeps_levels"
   ],
   "note": ""
  },
  {
   "property": "C08",
   "status": "proved",
   "theorems": [
    "Yaga.C08_subsumption_covers",
    "Yaga.C08_subsumption_equivalent"
   ],
   "note": ""
  },
  {
   "property": "C09",
   "status": "proved",
   "theorems": [
    "Yaga.C09_luby_sequence",
    "Yaga.C09_luby_wraps",
    "Yaga.C09_restart_when_due",
    "Yaga.C09_interval_overflow"
   ],
   "note": "For the intervals that fit into int (first 2^23-2); C09_interval_overflow and C09_luby_wraps exhibit what happens beyond."
  },
  {
   "property": "C10",
   "status": "proved",
   "theorems": [
    "Yaga.C10_lbd",
    "Yaga.C10_restart_gate"
   ],
   "note": "The floating-point averages are abstracted by an arbitrary fold and predicate."
  },
  {
   "property": "C11",
   "status": "proved",
   "theorems": [
    "Yaga.C11_priority_map",
    "Yaga.C11_pop_top"
   ],
   "note": ""
  },
  {
   "property": "C12",
   "status": "partial",
   "theorems": [
    "Yaga.C12_evsids",
    "Yaga.C12_first_unassigned",
    "Yaga.C12_combined",
    "Yaga.C12_gvsids_partial",
    "Yaga.C12_gvsids_no_restart",
    "Yaga.C12_gvsids_restart_loses_variable"
   ],
   "note": "Evsids, First_unassigned and the combination in full; Generalized_vsids loses the level-0 variables at a restart (C12_gvsids_restart_loses_variable), so it is proved for runs without restart at a non-empty level 0."
  },
  {
   "property": "C13",
   "status": "proved",
   "theorems": [
    "Yaga.C13_propagation_sound",
    "Yaga.C13_propagation_implied"
   ],
   "note": ""
  },
  {
   "property": "C14",
   "status": "proved",
   "theorems": [
    "Yaga.C14_propagation_complete",
    "Yaga.C14_after_propagate",
    "Yaga.C14_duplicate_literal_not_unit"
   ],
   "note": ""
  },
  {
   "property": "C15",
   "status": "proved",
   "theorems": [
    "Yaga.C15_unsat_sound",
    "Yaga.C15_database_entailed"
   ],
   "note": "Propositional configuration (Bool_theory, Evsids). All restart and phase choices are arbitrary."
  },
  {
   "property": "C16",
   "status": "proved",
   "theorems": [
    "Yaga.C16_sat_sound"
   ],
   "note": "Propositional configuration."
  },
  {
   "property": "C17",
   "status": "proved",
   "theorems": [
    "Yaga.C17_learn",
    "Yaga.C17_lowest_level"
   ],
   "note": ""
  },
  {
   "property": "C18",
   "status": "partial",
   "theorems": [
    "Yaga.C18_second_check_ignores_clauses",
    "Yaga.C18_same_clauses_partial"
   ],
   "note": "Does not hold: C18_second_check_ignores_clauses. Proved for no new clauses in between."
  },
  {
   "property": "C19",
   "status": "proved",
   "theorems": [
    "Yaga.C19_add_exact",
    "Yaga.C19_sub_exact",
    "Yaga.C19_mul_exact",
    "Yaga.C19_div_exact",
    "Yaga.C19_neg_exact",
    "Yaga.C19_compare_exact",
    "Yaga.C19_div_zero"
   ],
   "note": ""
  },
  {
   "property": "C20",
   "status": "proved",
   "theorems": [
    "Yaga.C20_computations_canonical",
    "Yaga.C20_representation_unique",
    "Yaga.C20_tests_exact"
   ],
   "note": ""
  },
  {
   "property": "C21",
   "status": "partial",
   "theorems": [
    "Yaga.C21_negative_numerator_wrong",
    "Yaga.C21_construct_partial"
   ],
   "note": "The code is wrong for a negative numerator with a common factor (C21_negative_numerator_wrong); C21_construct_partial states exactly when the constructor is right."
  },
  {
   "property": "C22",
   "status": "proved",
   "theorems": [
    "Yaga.C22_floor",
    "Yaga.C22_ceil",
    "Yaga.C22_isInteger"
   ],
   "note": ""
  },
  {
   "property": "C23",
   "status": "partial",
   "theorems": [
    "Yaga.C23_inverse_exact",
    "Yaga.C23_inv_truncates",
    "Yaga.C23_inv_ignores_state",
    "Yaga.C23_inv_partial",
    "Yaga.C23_mod_paths_differ",
    "Yaga.C23_mod_partial"
   ],
   "note": "inverse() is exact. inv() and operator% are wrong in the code (C23_inv_truncates, C23_inv_ignores_state, C23_mod_paths_differ); the _partial theorems cover the cases in which they are right."
  },
  {
   "property": "C24",
   "status": "proved",
   "theorems": [
    "Yaga.C24_make_meaning",
    "Yaga.C24_literals_stable",
    "Yaga.C24_make_eval",
    "Yaga.C24_reach_closed",
    "Yaga.C24_distinct_variables_needed"
   ],
   "note": ""
  },
  {
   "property": "C25",
   "status": "proved",
   "theorems": [
    "Yaga.C25_same_literal_iff",
    "Yaga.C25_multiples",
    "Yaga.C25_equal_hash"
   ],
   "note": ""
  },
  {
   "property": "C26",
   "status": "proved",
   "theorems": [
    "Yaga.C26_eval",
    "Yaga.C26_negation",
    "Yaga.C26_eval_three_valued",
    "Yaga.C26_is_strict",
    "Yaga.C26_implied_value",
    "Yaga.C26_constraint_of_literal"
   ],
   "note": ""
  },
  {
   "property": "C27",
   "status": "proved",
   "theorems": [
    "Yaga.C27_add",
    "Yaga.C27_sub",
    "Yaga.C27_negate",
    "Yaga.C27_subtract_var",
    "Yaga.C27_sort",
    "Yaga.C27_normalize",
    "Yaga.C27_implied_value"
   ],
   "note": ""
  },
  {
   "property": "C28",
   "status": "proved",
   "theorems": [
    "Yaga.C28_init",
    "Yaga.C28_init_with",
    "Yaga.C28_resolve",
    "Yaga.C28_predicate",
    "Yaga.C28_signs_needed"
   ],
   "note": ""
  },
  {
   "property": "C29",
   "status": "proved",
   "theorems": [
    "Yaga.C29_valid",
    "Yaga.C29_literals",
    "Yaga.C29_false",
    "Yaga.C29_state",
    "Yaga.C29_reported"
   ],
   "note": ""
  },
  {
   "property": "C30",
   "status": "proved",
   "theorems": [
    "Yaga.C30_valid",
    "Yaga.C30_literals",
    "Yaga.C30_false",
    "Yaga.C30_state"
   ],
   "note": ""
  },
  {
   "property": "C31",
   "status": "partial",
   "theorems": [
    "Yaga.C31_upper",
    "Yaga.C31_lower",
    "Yaga.C31_disallowed",
    "Yaga.C31_queries",
    "Yaga.C31_attained_partial",
    "Yaga.C31_strictness_inexact"
   ],
   "note": "Bounds are sound in full; whether a bound is attained is not computed exactly by is_strict (C31_strictness_inexact), the _partial theorem covers bounds whose dependencies have no dependencies."
  },
  {
   "property": "C32",
   "status": "partial",
   "theorems": [
    "Yaga.C32_live",
    "Yaga.C32_obsolete_only_by_backtracking",
    "Yaga.C32_upper_tightest",
    "Yaga.C32_lower_tightest",
    "Yaga.C32_offered_partial",
    "Yaga.C32_rejected_lost"
   ],
   "note": "Queries are proved in full; a bound that was offered while a tighter one was alive is not recorded and missing after the tighter one becomes obsolete (C32_rejected_lost); C57 shows when this is harmless."
  },
  {
   "property": "C33",
   "status": "proved",
   "theorems": [
    "Yaga.C33_decides",
    "Yaga.C33_allowed",
    "Yaga.C33_integer_preferred",
    "Yaga.C33_find_integer",
    "Yaga.C33_respects_recorded",
    "Yaga.C33_no_conflict_allows"
   ],
   "note": ""
  },
  {
   "property": "C34",
   "status": "partial",
   "theorems": [
    "Yaga.C34_inequalities_partial",
    "Yaga.C34_trail_partial",
    "Yaga.C34_assigned",
    "Yaga.C34_equality_wrong",
    "Yaga.C34_disequality_wrong"
   ],
   "note": "Right for inequalities; wrong in the code for equality predicates (C34_equality_wrong, C34_disequality_wrong)."
  },
  {
   "property": "C35",
   "status": "partial",
   "theorems": [
    "Yaga.C35_valid_partial",
    "Yaga.C35_conflict_partial",
    "Yaga.C35_total_partial",
    "Yaga.C35_false"
   ],
   "note": "Proved for functions of numbers with numbers as values (validity, falsity on the trail, no exception). Wrong in the code for Boolean arguments (C35_false)."
  },
  {
   "property": "C36",
   "status": "partial",
   "theorems": [
    "Yaga.C36_model_partial",
    "Yaga.C36_functional",
    "Yaga.C36_false"
   ],
   "note": "Proved for functions of numbers with numbers as values; wrong in the code for Boolean arguments (C36_false: the sign of a literal is ignored). At most one entry per argument tuple is proved for all sorts."
  },
  {
   "property": "C37",
   "status": "proved",
   "theorems": [
    "Yaga.C37_described",
    "Yaga.C37_persistent",
    "Yaga.C37_hash_consing",
    "Yaga.C37_primitive"
   ],
   "note": ""
  },
  {
   "property": "C38",
   "status": "proved",
   "theorems": [
    "Yaga.C38_connectives",
    "Yaga.C38_not",
    "Yaga.C38_total"
   ],
   "note": ""
  },
  {
   "property": "C39",
   "status": "proved",
   "theorems": [
    "Yaga.C39_meaning",
    "Yaga.C39_total",
    "Yaga.C39_equality"
   ],
   "note": ""
  },
  {
   "property": "C40",
   "status": "partial",
   "theorems": [
    "Yaga.C40_canonical_partial",
    "Yaga.C40_equality_partial",
    "Yaga.C40_results",
    "Yaga.C40_false"
   ],
   "note": "Not canonical in general (C40_false); proved for the cases named in the _partial theorems."
  },
  {
   "property": "C41",
   "status": "proved",
   "theorems": [
    "Yaga.C41_decimal",
    "Yaga.C41_numeral",
    "Yaga.C41_term"
   ],
   "note": ""
  },
  {
   "property": "C42",
   "status": "partial",
   "theorems": [
    "Yaga.C42_substitution_partial",
    "Yaga.C42_only_root",
    "Yaga.C42_rebuild_partial",
    "Yaga.C42_false",
    "Yaga.C42_rebuild_app_false"
   ],
   "note": "Wrong in the code: an inverted test in Term_rewriter.h:44 means that arguments below the root are not substituted (C42_false, C42_only_root). Rebuilding a term keeps its value except for applications (C42_rebuild_partial, C42_rebuild_app_false)."
  },
  {
   "property": "C43",
   "status": "proved",
   "theorems": [
    "Yaga.C43_innermost",
    "Yaga.C43_let"
   ],
   "note": ""
  },
  {
   "property": "C44",
   "status": "proved",
   "theorems": [
    "Yaga.C44_sound",
    "Yaga.C44_complete",
    "Yaga.C44_equisatisfiable",
    "Yaga.C44_unsat",
    "Yaga.C44_total",
    "Yaga.C44_unsupported"
   ],
   "note": "Sound, complete and total on the terms the converter supports; C44_unsupported names a term on which it fails."
  },
  {
   "property": "C45",
   "status": "partial",
   "theorems": [
    "Yaga.C45_unsat",
    "Yaga.C45_unsat_early",
    "Yaga.C45_sat_partial",
    "Yaga.C45_false"
   ],
   "note": "unsat answers are right for any number of check-sat commands; sat answers only for the first one (C45_false)."
  },
  {
   "property": "C46",
   "status": "partial",
   "theorems": [
    "Yaga.C46_reads",
    "Yaga.C46_solve_partial",
    "Yaga.C46_unsat_partial",
    "Yaga.C46_rejects_partial",
    "Yaga.C46_false"
   ],
   "note": "Reading is exact on well-formed input; numbers out of the range of int silently drop the rest of the line (C46_false)."
  },
  {
   "property": "C47",
   "status": "proved",
   "theorems": [
    "Yaga.C47_unsat_sound",
    "Yaga.C47_database_entailed"
   ],
   "note": "Other plugins are arbitrary relations satisfying the contract; runs that violate a precondition of Trail::backtrack or Trail::decide have no result."
  },
  {
   "property": "C48",
   "status": "proved",
   "theorems": [
    "Yaga.C48_fixpoint",
    "Yaga.C48_nothing_new_in_last_pass",
    "Yaga.C48_terminates"
   ],
   "note": "Plugins are arbitrary state transformers; termination and the last-pass claim under the documented contract that propagate only adds assignments."
  },
  {
   "property": "C49",
   "status": "partial",
   "theorems": [
    "Yaga.C49_decide",
    "Yaga.C49_phase_saving_partial",
    "Yaga.C49_restart_loses_level_zero"
   ],
   "note": "Value selection is proved in full; the cache is exact except for level-0 variables at a restart (C49_restart_loses_level_zero)."
  },
  {
   "property": "C50",
   "status": "proved",
   "theorems": [
    "Yaga.C50_event_delivery",
    "Yaga.C50_only_events_deliver"
   ],
   "note": "Listeners do not call back into the dispatcher during delivery."
  },
  {
   "property": "C51",
   "status": "proved",
   "theorems": [
    "Yaga.C51_propagation_terminates",
    "Yaga.C51_result_unique"
   ],
   "note": ""
  },
  {
   "property": "C52",
   "status": "proved",
   "theorems": [
    "Yaga.C52_progress"
   ],
   "note": ""
  },
  {
   "property": "C53",
   "status": "proved",
   "theorems": [
    "Yaga.C53_reads",
    "Yaga.C53_rejects"
   ],
   "note": ""
  },
  {
   "property": "C54",
   "status": "partial",
   "theorems": [
    "Yaga.C54_sat_partial",
    "Yaga.C54_false"
   ],
   "note": "Proved for functions of numbers with numbers as values; C54_false is a run to a wrong sat answer with a Boolean argument. That the clauses are true and the constraints have their values at a sat answer is the business of the other plugins (C13, C30)."
  },
  {
   "property": "C55",
   "status": "proved",
   "theorems": [
    "Yaga.C55_watch_sound",
    "Yaga.C55_watched_once",
    "Yaga.C55_watch_order",
    "Yaga.C55_assertions",
    "Yaga.C55_core"
   ],
   "note": "The variables of a constraint are unassigned when the user creates it; UF equalities are propagated at the level of the variables of their difference."
  },
  {
   "property": "C56",
   "status": "proved",
   "theorems": [
    "Yaga.C56_consistent",
    "Yaga.C56_evaluated",
    "Yaga.C56_conflicts",
    "Yaga.C56_kept"
   ],
   "note": ""
  },
  {
   "property": "C57",
   "status": "proved",
   "theorems": [
    "Yaga.C57_units",
    "Yaga.C57_model",
    "Yaga.C57_late_split"
   ],
   "note": "For histories in which a semantic split does not skip a late literal of a constraint with unassigned variables; C57_late_split shows that the precondition is needed."
  },
  {
   "property": "C58",
   "status": "proved",
   "theorems": [
    "Yaga.C58_unsat"
   ],
   "note": ""
  },
  {
   "property": "C59",
   "status": "proved",
   "theorems": [
    "Yaga.C59_sat",
    "Yaga.C59_agree"
   ],
   "note": ""
  },
  {
   "property": "C60",
   "status": "proved",
   "theorems": [
    "Yaga.C60_analysis",
    "Yaga.C60_backtrack",
    "Yaga.C60_continues"
   ],
   "note": ""
  },
  {
   "property": "C61",
   "status": "proved",
   "theorems": [
    "Yaga.C61_start",
    "Yaga.C61_unsat",
    "Yaga.C61_sat",
    "Yaga.C61_model"
   ],
   "note": ""
  },
  {
   "property": "C62",
   "status": "proved",
   "theorems": [
    "Yaga.C62_value",
    "Yaga.C62_decide",
    "Yaga.C62_iteration",
    "Yaga.C62_never_stuck"
   ],
   "note": ""
  },
  {
   "property": "C63",
   "status": "proved",
   "theorems": [
    "Yaga.C63_picks",
    "Yaga.C63_unsat",
    "Yaga.C63_sat",
    "Yaga.C63_never_stuck",
    "Yaga.C63_push_assertion"
   ],
   "note": ""
  },
  {
   "property": "C64",
   "status": "partial",
   "theorems": [
    "Yaga.C64_make",
    "Yaga.C64_add",
    "Yaga.C64_mul",
    "Yaga.C64_neg",
    "Yaga.C64_inv",
    "Yaga.C64_sub_partial",
    "Yaga.C64_sub_false",
    "Yaga.C64_div_partial",
    "Yaga.C64_div_false",
    "Yaga.C64_compare",
    "Yaga.C64_compare_int",
    "Yaga.C64_mixed_partial",
    "Yaga.C64_exact",
    "Yaga.C64_zero_division",
    "Yaga.C64_toInt",
    "Yaga.C64_toInt_not_floor"
   ],
   "note": "Proved without exception for sums, products, negation, inverse and comparisons. Differences and quotients that are computed are right, but for INT_MIN as second operand some that fit are not computed (C64_sub_false, C64_div_false); division by 0 is not checked (C64_zero_division)."
  },
  {
   "property": "C65",
   "status": "proved",
   "theorems": [
    "Yaga.C65_iterations_bounded",
    "Yaga.C65_terminates",
    "Yaga.C65_answers",
    "Yaga.C65_decides"
   ],
   "note": "Termination is about iterations of check(); propagation within one ends by C51. Propositional solver only: with arithmetic check() can make new constraints and nothing is claimed."
  },
  {
   "property": "C66",
   "status": "partial",
   "theorems": [
    "Yaga.C66_start",
    "Yaga.C66_unsat_partial",
    "Yaga.C66_sat_partial",
    "Yaga.C66_assertions_partial",
    "Yaga.C66_levels_false"
   ],
   "note": "Missing: functions with Boolean arguments or values, terms the conversion does not support, and arguments with several variables. For the last C66_levels_false shows a run in which an assertion of the arithmetic plugin fails; for the first see C54_false."
  },
  {
   "property": "C67",
   "status": "partial",
   "theorems": [
    "Yaga.C67_functions_partial",
    "Yaga.C67_analysis_partial",
    "Yaga.C67_backtrack_partial",
    "Yaga.C67_conflict_partial",
    "Yaga.C67_iteration_partial",
    "Yaga.C67_never_stuck_partial"
   ],
   "note": "Missing: as for C66; and that check() returns is not proved (C65 proves it for the propositional solver)."
  },
  {
   "property": "C68",
   "status": "partial",
   "theorems": [
    "Yaga.C68_start",
    "Yaga.C68_picks_partial",
    "Yaga.C68_unsat_partial",
    "Yaga.C68_sat_partial",
    "Yaga.C68_never_stuck_partial"
   ],
   "note": "As C66: the first check-sat of a script whose functions take and return reals; the hypotheses of C66 on the table remain. The first run of the variable order is any state that passes its own initialisation. Termination is not proved. C68_never_stuck_partial excludes --prop-rational."
  },
  {
   "property": "C69",
   "status": "partial",
   "theorems": [
    "Yaga.C69_number",
    "Yaga.C69_uflra_partial",
    "Yaga.C69_lra_partial",
    "Yaga.C69_quoted"
   ],
   "note": "C69_uflra_partial has the hypotheses of C66 (real functions, at most one variable per argument, supported terms); both theorems need names that can be printed without bars, and C69_quoted is a witness that others are not readable. Assumed about the parser: declared symbols have different names, and a function always gets the same number of arguments; C75 proves this for scripts. The output of integers by the standard library and by GMP is a contract (decimal digits)."
  },
  {
   "property": "C70",
   "status": "partial",
   "theorems": [
    "Yaga.C70_munch",
    "Yaga.C70_reads_partial",
    "Yaga.C70_define_const",
    "Yaga.C70_other_reserved"
   ],
   "note": "C70_munch is complete. C70_reads_partial excludes the symbol define-const, which the lexer treats as a reserved word (C70_define_const). Reserved words of the standard that the solver does not support are returned as symbols (C70_other_reserved). Flex itself is a contract: the generated scanner follows the rule stated in Munch."
  },
  {
   "property": "C71",
   "status": "partial",
   "theorems": [
    "Yaga.C71_structure_partial",
    "Yaga.C71_interpretation_partial",
    "Yaga.C71_satisfiable_partial",
    "Yaga.C71_shadowed_true",
    "Yaga.C71_parameters",
    "Yaga.C71_rejected"
   ],
   "note": "Proved for accepted scripts of declarations, definitions without parameters and assertions, with no let variable named true or false. C71_parameters: definitions with parameters are read wrongly. C71_shadowed_true: a let variable named true is ignored. C71_rejected: well-formed chains with three or more arguments, products of three factors and products of variables are not accepted."
  },
  {
   "property": "C72",
   "status": "partial",
   "theorems": [
    "Yaga.C72_answer_partial",
    "Yaga.C72_lra_partial",
    "Yaga.C72_uflra_partial",
    "Yaga.C72_printed_partial"
   ],
   "note": "Proved for the first check-sat and the first printed line, for the commands set-logic, set-info and set-option with a value of one token, declare-const, declare-fun, define-fun without parameters, assert, check-sat, get-model and exit; QF_UFLRA in the fragment of C68. Missing: later check-sat commands, definitions with parameters (C71_parameters: read wrongly), scripts that go on after an error."
  },
  {
   "property": "C73",
   "status": "proved",
   "theorems": [
    "Yaga.C73_accepted",
    "Yaga.C73_printed",
    "Yaga.C73_lra",
    "Yaga.C73_multiple_of_multiple"
   ],
   "note": "C73_accepted is the acceptance of the fragment (Spec/Linearity), C73_printed and C73_lra compose it with C72: first check-sat, QF_LRA for the truth of the answer. C73_multiple_of_multiple: outside the fragment (= x (* 0.5 (* 2 x))) is rejected although every product has a constant factor; C71_rejected lists further rejected terms."
  },
  {
   "property": "C74",
   "status": "proved",
   "theorems": [
    "Yaga.C74_lra_search",
    "Yaga.C74_uflra_search",
    "Yaga.C74_lra",
    "Yaga.C74_uflra"
   ],
   "note": "Composition of C44, C61-C63, C66-C68, C72 and C73 for syntactic fragments (Spec/Linearity). --prop-rational is excluded because of C63_push_assertion. For QF_UFLRA the fragment excludes Boolean arguments and results (C54_false), arguments with several variables (C66_levels_false) and debug builds (equations with an application as a side fail an assertion, C44_unsupported). That the loop ends is not claimed; C65 proves it for the propositional solver."
  },
  {
   "property": "C75",
   "status": "proved",
   "theorems": [
    "Yaga.C75_lra_response",
    "Yaga.C75_uflra_response",
    "Yaga.C75_lra",
    "Yaga.C75_uflra"
   ],
   "note": "C75_lra_response and C75_uflra_response are about the state after the commands, C75_lra and C75_uflra about the characters of the script and the printed lines; the shell's oracle is assumed to print a text of Model/Response after the answer sat. The fragment for QF_UFLRA is that of C74. C69_quoted shows that names with bars are not printed in a readable form."
  },
  {
   "property": "C76",
   "status": "partial",
   "theorems": [
    "Yaga.C76_num_den",
    "Yaga.C76_fdiv",
    "Yaga.C76_round",
    "Yaga.C76_abs",
    "Yaga.C76_cmpabs",
    "Yaga.C76_divexact_partial",
    "Yaga.C76_gcd_partial",
    "Yaga.C76_lcm_partial",
    "Yaga.C76_false"
   ],
   "note": "Numerator, denominator, floor division, rounding, abs and cmpabs are exact for all canonical values. divexact, gcd and lcm are exact except for the pair INT_MIN, -1 (undefined behaviour), and gcd and lcm of negative words may have the wrong sign (C76_false gives witnesses)."
  },
  {
   "property": "C77",
   "status": "proved",
   "theorems": [
    "Yaga.C77_least"
   ],
   "note": "For all lists of canonical values; includes termination (the bound on the iterations in the model is never reached)."
  },
  {
   "property": "C78",
   "status": "proved",
   "theorems": [
    "Yaga.C78_total",
    "Yaga.C78_answer"
   ],
   "note": "C78_total is about every file, C78_answer about every layout of a file in the DIMACS format. Assumptions: the contract of >> for int (as in C46), and the file can be opened. The statistics printed after the answer are not modelled."
  },
  {
   "property": "C79",
   "status": "proved",
   "theorems": [
    "Yaga.C79_safe",
    "Yaga.C79_ends",
    "Yaga.C79_propositional",
    "Yaga.C79_qf_lra",
    "Yaga.C79_qf_uflra",
    "Yaga.C79_watches_dangle"
   ],
   "note": "The checked version of the plugin (Model/BoolChecked.lean) returns `none` for every failed check; the theorems say that it returns what the unchecked model returns. The assertion about levels (lines 229-231) is proved for the propositional solver only. C79_watches_dangle: between two checks the clauses are removed while watches to them remain, so the property is about the first check."
  },
  {
   "property": "C80",
   "status": "proved",
   "theorems": [
    "Yaga.C80_words",
    "Yaga.C80_all_words",
    "Yaga.C80_unknown",
    "Yaga.C80_exit",
    "Yaga.C80_lra",
    "Yaga.C80_answered_lra",
    "Yaga.C80_answered_uflra",
    "Yaga.C80_model_lra",
    "Yaga.C80_model_uflra",
    "Yaga.C80_phase_ignored",
    "Yaga.C80_exit_hides_errors"
   ],
   "note": "C80_lra and the model theorems are stated without --print-stats, whose counters come before the answer on the same stream; C80_answered_* covers it. Disagreements with what a user would expect: C80_phase_ignored (a value of --phase that is not known is dropped without a word, also when it is the path of the script) and C80_exit_hides_errors (exit code 0 for a missing file and for a script with a syntax error)."
  },
  {
   "property": "C81",
   "status": "proved",
   "theorems": [
    "Yaga.C81_restart_lra",
    "Yaga.C81_lra",
    "Yaga.C81_endless_lra",
    "Yaga.C81_no_restart_lra",
    "Yaga.C81_uflra",
    "Yaga.C81_endless_uflra",
    "Yaga.C81_script_lra",
    "Yaga.C81_script_uflra"
   ],
   "note": "Termination with restarts is proved only for the propositional solver (C78). For QF_LRA the theorems say what an endless run must do; C81_script_* apply them to the runs left open in C74. C81_no_restart_lra: without restarts, or with finitely many, an endless search creates unboundedly many constraints."
  },
  {
   "property": "C82",
   "status": "partial",
   "theorems": [
    "Yaga.C82_delivery",
    "Yaga.C82_order",
    "Yaga.C82_sizes",
    "Yaga.C82_init",
    "Yaga.C82_setups",
    "Yaga.C82_combined_wrong_event",
    "Yaga.C82_counters_partial",
    "Yaga.C82_counters_not_reset"
   ],
   "note": "Proved: delivery, order, sizes, init, the three set-ups. The last two sentences of the property are false for the code: Combined_order turns on_conflict_resolved into on_learned_clause (C82_combined_wrong_event; no set-up uses Combined_order), and two of the five counters are never reset (C82_counters_not_reset; C82_counters_partial says what all five count)."
  },
  {
   "property": "C83",
   "status": "proved",
   "theorems": [
    "Yaga.C83_propagate",
    "Yaga.C83_decide",
    "Yaga.C83_runs"
   ],
   "note": "Checked versions of the functions (Model/FmChecked: none is a failed assertion) return some of what the unchecked ones return. Deciding needs a timely history (C57, C62), which C83_runs shows for the loop."
  },
  {
   "property": "C84",
   "status": "proved",
   "theorems": [
    "Yaga.C84_upper",
    "Yaga.C84_lower",
    "Yaga.C84_bounds_check",
    "Yaga.C84_watch_check",
    "Yaga.C84_runs"
   ],
   "note": "The bounds and watch checks are modelled as Boolean functions (Model/LraChecks). The bounds check needs a timely history (C57, C62), which C84_runs shows for the loop. The examples show that both checks can fail in the other stages."
  },
  {
   "property": "C85",
   "status": "partial",
   "theorems": [
    "Yaga.C85_adds",
    "Yaga.C85_implied_partial",
    "Yaga.C85_equality_wrong"
   ],
   "note": "Proved: what is added, that the invariants are kept, and that it is implied if no equality has the variable decided last. Missing: equalities, for which the code is wrong (C85_equality_wrong, from is_implied, see C34)."
  },
  {
   "property": "C86",
   "status": "proved",
   "theorems": [
    "Yaga.C86_init",
    "Yaga.C86_checked",
    "Yaga.C86_fails_exactly"
   ],
   "note": "C86_checked: the operations with all checks (Model/TermChecked) equal the ones without. C86_fails_exactly: an operation of well-typed arguments fails exactly in the listed cases. Names of terms (set_term_name) are in C42."
  },
  {
   "property": "C87",
   "status": "proved",
   "theorems": [
    "Yaga.C87_merge",
    "Yaga.C87_add_term",
    "Yaga.C87_get_remove",
    "Yaga.C87_scale",
    "Yaga.C87_zero_not_normal"
   ],
   "note": "C87_zero_not_normal shows that the functions do not check for factor 0; the callers never pass it to merge (C37-C39)."
  },
  {
   "property": "C88",
   "status": "proved",
   "theorems": [
    "Yaga.C88_traversal",
    "Yaga.C88_conversion",
    "Yaga.C88_root_twice"
   ],
   "note": "C88_root_twice: the other public function, visit(term_t), fails its assertion for a root that was processed before; only the function for several roots calls it, after a test."
  },
  {
   "property": "C89",
   "status": "partial",
   "theorems": [
    "Yaga.C89_minimize",
    "Yaga.C89_restart",
    "Yaga.C89_restart_undefined",
    "Yaga.C89_history_partial",
    "Yaga.C89_stale_size",
    "Yaga.C89_stale_size_keeps_subsumed"
   ],
   "note": "Proved for minimize, for one restart and for all histories of one check-sat. The code violates the claim for later ones: C89_stale_size (Yaga::init leaves old_size as it is, the next restart forms an iterator behind the end of the learned clauses), C89_stale_size_keeps_subsumed (with enough clauses a subsumed one is kept)."
  },
  {
   "property": "C90",
   "status": "proved",
   "theorems": [
    "Yaga.C90_analysis",
    "Yaga.C90_learn",
    "Yaga.C90_orderings",
    "Yaga.C90_conflict",
    "Yaga.C90_propositional"
   ],
   "note": "Checked model of analysis, learning and backtrack_with; the trail-level theorems hold for every well-formed trail, C90_conflict and C90_propositional for every reachable state. The same for QF_UFLRA is C67_conflict_partial."
  },
  {
   "property": "C91",
   "status": "proved",
   "theorems": [
    "Yaga.C91_memory",
    "Yaga.C91_contents"
   ],
   "note": "Memory-level model of the queue; C91_memory is an equivalence with the runs of the priority map of C11."
  },
  {
   "property": "C92",
   "status": "proved",
   "theorems": [
    "Yaga.C92_memory",
    "Yaga.C92_levels",
    "Yaga.C92_model_needed"
   ],
   "note": "Memory-level model of Trail and Model; legal histories are those of C03 with one set_model for each type."
  },
  {
   "property": "C93",
   "status": "proved",
   "theorems": [
    "Yaga.C93_memory",
    "Yaga.C93_contents"
   ],
   "note": "Vector model of Literal_map; C93_memory is an equivalence with the legal sequences of calls."
  },
  {
   "property": "C94",
   "status": "proved",
   "theorems": [
    "Yaga.C94_memory",
    "Yaga.C94_pick"
   ],
   "note": "Memory-level model of Generalized_vsids on top of C91; C94_pick states when the assertion of push fails (see C63)."
  }
 ]
}