{
 "C09": {
  "note": "For the intervals that fit into int (first 2^23-2); C09_interval_overflow and C09_luby_wraps exhibit what happens beyond."
 },
 "C10": {
  "note": "The floating-point averages are abstracted by an arbitrary fold and predicate."
 },
 "C48": {
  "note": "Plugins are arbitrary state transformers; termination and the last-pass claim under the documented contract that propagate only adds assignments."
 },
 "C50": {
  "note": "Listeners do not call back into the dispatcher during delivery."
 },
 "C15": {
  "note": "Propositional configuration (Bool_theory, Evsids). All restart and phase choices are arbitrary."
 },
 "C16": {
  "note": "Propositional configuration."
 },
 "C18": {
  "note": "Does not hold: C18_second_check_ignores_clauses. Proved for no new clauses in between."
 },
 "C47": {
  "note": "Other plugins are arbitrary relations satisfying the contract; runs that violate a precondition of Trail::backtrack or Trail::decide have no result."
 },
 "C49": {
  "note": "Value selection is proved in full; the cache is exact except for level-0 variables at a restart (C49_restart_loses_level_zero)."
 },
 "C21": {
  "note": "The code is wrong for a negative numerator with a common factor (C21_negative_numerator_wrong); C21_construct_partial states exactly when the constructor is right."
 },
 "C23": {
  "note": "inverse() is exact. inv() and operator% are wrong in the code (C23_inv_truncates, C23_inv_ignores_state, C23_mod_paths_differ); the _partial theorems cover the cases in which they are right."
 },
 "C35": {
  "note": "Proved for functions of numbers with numbers as values (validity, falsity on the trail, no exception). Wrong in the code for Boolean arguments (C35_false)."
 },
 "C36": {
  "note": "Proved for functions of numbers with numbers as values; wrong in the code for Boolean arguments (C36_false: the sign of a literal is ignored). At most one entry per argument tuple is proved for all sorts."
 },
 "C54": {
  "note": "Proved for functions of numbers with numbers as values; C54_false is a run to a wrong sat answer with a Boolean argument. That the clauses are true and the constraints have their values at a sat answer is the business of the other plugins (C13, C30)."
 },
 "C12": {
  "note": "Evsids, First_unassigned and the combination in full; Generalized_vsids loses the level-0 variables at a restart (C12_gvsids_restart_loses_variable), so it is proved for runs without restart at a non-empty level 0."
 },
 "C31": {
  "note": "Bounds are sound in full; whether a bound is attained is not computed exactly by is_strict (C31_strictness_inexact), the _partial theorem covers bounds whose dependencies have no dependencies."
 },
 "C32": {
  "note": "Queries are proved in full; a bound that was offered while a tighter one was alive is not recorded and missing after the tighter one becomes obsolete (C32_rejected_lost); C57 shows when this is harmless."
 },
 "C34": {
  "note": "Right for inequalities; wrong in the code for equality predicates (C34_equality_wrong, C34_disequality_wrong)."
 },
 "C40": {
  "note": "Not canonical in general (C40_false); proved for the cases named in the _partial theorems."
 },
 "C42": {
  "note": "Wrong in the code: an inverted test in Term_rewriter.h:44 means that arguments below the root are not substituted (C42_false, C42_only_root). Rebuilding a term keeps its value except for applications (C42_rebuild_partial, C42_rebuild_app_false)."
 },
 "C44": {
  "note": "Sound, complete and total on the terms the converter supports; C44_unsupported names a term on which it fails."
 },
 "C45": {
  "note": "unsat answers are right for any number of check-sat commands; sat answers only for the first one (C45_false)."
 },
 "C46": {
  "note": "Reading is exact on well-formed input; numbers out of the range of int silently drop the rest of the line (C46_false)."
 },
 "C55": {
  "note": "The variables of a constraint are unassigned when the user creates it; UF equalities are propagated at the level of the variables of their difference."
 },
 "C57": {
  "note": "For histories in which a semantic split does not skip a late literal of a constraint with unassigned variables; C57_late_split shows that the precondition is needed."
 },
 "C64": {
  "note": "Proved without exception for sums, products, negation, inverse and comparisons. Differences and quotients that are computed are right, but for INT_MIN as second operand some that fit are not computed (C64_sub_false, C64_div_false); division by 0 is not checked (C64_zero_division)."
 },
 "C65": {
  "note": "Termination is about iterations of check(); propagation within one ends by C51. Propositional solver only: with arithmetic check() can make new constraints and nothing is claimed."
 },
 "C66": {
  "status": "partial",
  "note": "Missing: functions with Boolean arguments or values, terms the conversion does not support, and arguments with several variables. For the last C66_levels_false shows a run in which an assertion of the arithmetic plugin fails; for the first see C54_false."
 },
 "C67": {
  "status": "partial",
  "note": "Missing: as for C66; and that check() returns is not proved (C65 proves it for the propositional solver)."
 },
 "C68": {
  "status": "partial",
  "note": "As C66: the first check-sat of a script whose functions take and return reals; the hypotheses of C66 on the table remain. The first run of the variable order is any state that passes its own initialisation. Termination is not proved. C68_never_stuck_partial excludes --prop-rational."
 },
 "C69": {
  "status": "partial",
  "note": "C69_uflra_partial has the hypotheses of C66 (real functions, at most one variable per argument, supported terms); both theorems need names that can be printed without bars, and C69_quoted is a witness that others are not readable. Assumed about the parser: declared symbols have different names, and a function always gets the same number of arguments; C75 proves this for scripts. The output of integers by the standard library and by GMP is a contract (decimal digits)."
 },
 "C70": {
  "status": "partial",
  "note": "C70_munch is complete. C70_reads_partial excludes the symbol define-const, which the lexer treats as a reserved word (C70_define_const). Reserved words of the standard that the solver does not support are returned as symbols (C70_other_reserved). Flex itself is a contract: the generated scanner follows the rule stated in Munch."
 },
 "C71": {
  "status": "partial",
  "note": "Proved for accepted scripts of declarations, definitions without parameters and assertions, with no let variable named true or false. C71_parameters: definitions with parameters are read wrongly. C71_shadowed_true: a let variable named true is ignored. C71_rejected: well-formed chains with three or more arguments, products of three factors and products of variables are not accepted."
 },
 "C72": {
  "status": "partial",
  "note": "Proved for the first check-sat and the first printed line, for the commands set-logic, set-info and set-option with a value of one token, declare-const, declare-fun, define-fun without parameters, assert, check-sat, get-model and exit; QF_UFLRA in the fragment of C68. Missing: later check-sat commands, definitions with parameters (C71_parameters: read wrongly), scripts that go on after an error."
 },
 "C73": {
  "status": "proved",
  "note": "C73_accepted is the acceptance of the fragment (Spec/Linearity), C73_printed and C73_lra compose it with C72: first check-sat, QF_LRA for the truth of the answer. C73_multiple_of_multiple: outside the fragment (= x (* 0.5 (* 2 x))) is rejected although every product has a constant factor; C71_rejected lists further rejected terms."
 },
 "C74": {
  "status": "proved",
  "note": "Composition of C44, C61-C63, C66-C68, C72 and C73 for syntactic fragments (Spec/Linearity). --prop-rational is excluded because of C63_push_assertion. For QF_UFLRA the fragment excludes Boolean arguments and results (C54_false), arguments with several variables (C66_levels_false) and debug builds (equations with an application as a side fail an assertion, C44_unsupported). That the loop ends is not claimed; C65 proves it for the propositional solver."
 },
 "C75": {
  "status": "proved",
  "note": "C75_lra_response and C75_uflra_response are about the state after the commands, C75_lra and C75_uflra about the characters of the script and the printed lines; the shell's oracle is assumed to print a text of Model/Response after the answer sat. The fragment for QF_UFLRA is that of C74. C69_quoted shows that names with bars are not printed in a readable form."
 },
 "C76": {
  "status": "partial",
  "note": "Numerator, denominator, floor division, rounding, abs and cmpabs are exact for all canonical values. divexact, gcd and lcm are exact except for the pair INT_MIN, -1 (undefined behaviour), and gcd and lcm of negative words may have the wrong sign (C76_false gives witnesses)."
 },
 "C77": {
  "status": "proved",
  "note": "For all lists of canonical values; includes termination (the bound on the iterations in the model is never reached)."
 },
 "C78": {
  "status": "proved",
  "note": "C78_total is about every file, C78_answer about every layout of a file in the DIMACS format. Assumptions: the contract of >> for int (as in C46), and the file can be opened. The statistics printed after the answer are not modelled."
 },
 "C79": {
  "status": "proved",
  "note": "The checked version of the plugin (Model/BoolChecked.lean) returns `none` for every failed check; the theorems say that it returns what the unchecked model returns. The assertion about levels (lines 229-231) is proved for the propositional solver only. C79_watches_dangle: between two checks the clauses are removed while watches to them remain, so the property is about the first check."
 },
 "C80": {
  "status": "proved",
  "note": "C80_lra and the model theorems are stated without --print-stats, whose counters come before the answer on the same stream; C80_answered_* covers it. Disagreements with what a user would expect: C80_phase_ignored (a value of --phase that is not known is dropped without a word, also when it is the path of the script) and C80_exit_hides_errors (exit code 0 for a missing file and for a script with a syntax error)."
 },
 "C81": {
  "status": "proved",
  "note": "Termination with restarts is proved only for the propositional solver (C78). For QF_LRA the theorems say what an endless run must do; C81_script_* apply them to the runs left open in C74. C81_no_restart_lra: without restarts, or with finitely many, an endless search creates unboundedly many constraints."
 },
 "C82": {
  "status": "partial",
  "note": "Proved: delivery, order, sizes, init, the three set-ups. The last two sentences of the property are false for the code: Combined_order turns on_conflict_resolved into on_learned_clause (C82_combined_wrong_event; no set-up uses Combined_order), and two of the five counters are never reset (C82_counters_not_reset; C82_counters_partial says what all five count)."
 },
 "C83": {
  "status": "proved",
  "note": "Checked versions of the functions (Model/FmChecked: none is a failed assertion) return some of what the unchecked ones return. Deciding needs a timely history (C57, C62), which C83_runs shows for the loop."
 },
 "C84": {
  "status": "proved",
  "note": "The bounds and watch checks are modelled as Boolean functions (Model/LraChecks). The bounds check needs a timely history (C57, C62), which C84_runs shows for the loop. The examples show that both checks can fail in the other stages."
 },
 "C85": {
  "status": "partial",
  "note": "Proved: what is added, that the invariants are kept, and that it is implied if no equality has the variable decided last. Missing: equalities, for which the code is wrong (C85_equality_wrong, from is_implied, see C34)."
 },
 "C86": {
  "status": "proved",
  "note": "C86_checked: the operations with all checks (Model/TermChecked) equal the ones without. C86_fails_exactly: an operation of well-typed arguments fails exactly in the listed cases. Names of terms (set_term_name) are in C42."
 },
 "C87": {
  "status": "proved",
  "note": "C87_zero_not_normal shows that the functions do not check for factor 0; the callers never pass it to merge (C37-C39)."
 },
 "C88": {
  "status": "proved",
  "note": "C88_root_twice: the other public function, visit(term_t), fails its assertion for a root that was processed before; only the function for several roots calls it, after a test."
 },
 "C89": {
  "status": "partial",
  "note": "Proved for minimize, for one restart and for all histories of one check-sat. The code violates the claim for later ones: C89_stale_size (Yaga::init leaves old_size as it is, the next restart forms an iterator behind the end of the learned clauses), C89_stale_size_keeps_subsumed (with enough clauses a subsumed one is kept)."
 },
 "C90": {
  "note": "Checked model of analysis, learning and backtrack_with; the trail-level theorems hold for every well-formed trail, C90_conflict and C90_propositional for every reachable state. The same for QF_UFLRA is C67_conflict_partial."
 },
 "C91": {
  "note": "Memory-level model of the queue; C91_memory is an equivalence with the runs of the priority map of C11."
 },
 "C92": {
  "note": "Memory-level model of Trail and Model; legal histories are those of C03 with one set_model for each type."
 },
 "C94": {
  "note": "Memory-level model of Generalized_vsids on top of C91; C94_pick states when the assertion of push fails (see C63)."
 },
 "C93": {
  "note": "Vector model of Literal_map; C93_memory is an equivalence with the legal sequences of calls."
 }
}