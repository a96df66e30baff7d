#!/usr/bin/env python3
# Generates /verif/properties.jsonl (one property per line).
import json, os
P = []
def p(title, statement, quantifier, why, anchors):
    P.append(dict(id="C%02d" % (len(P)+1), title=title, statement=statement, quantifier=quantifier,
                  why_tests_cant=why, anchors=anchors))

p("Literal algebra",
  "Negating a literal twice gives the literal back, a literal is never equal to its negation, both name the same variable with opposite polarity, and the literal order is a strict total order in which x and ~x are adjacent (so sort+unique on a clause removes exactly the duplicates).",
  "all variable ordinals and both polarities",
  "the order must be total and the index injective for every pair of literals; tests only sample pairs",
  ["src/Literal.h: Literal, Literal_comparer", "src/Literal_map.h: Literal_map"])
p("Partial clause evaluation",
  "Evaluating a clause in a partial model gives true iff some literal is true, false iff every literal is false, and 'undefined' otherwise; the answer is stable under extending the model once it is defined.",
  "all clauses, all partial models, all extensions of them",
  "quantifies over every partial assignment and every extension",
  ["src/Model.h: eval(model, literal), eval(model, clause)"])
p("Trail bookkeeping invariant",
  "After any history of resize/decide/propagate/backtrack/clear calls that respects the documented preconditions, a variable has a decision level iff it is recorded on the trail, its level is at most the current decision level, it occurs exactly once in the assignment list of its own level and in no list of a lower level (the lists it occurs in form an interval starting at its own level), and each level above 0 starts with its decision.",
  "all finite histories of trail operations",
  "histories are unbounded and interleave late low-level propagations with backtracking",
  ["src/Trail.h: decide, propagate, backtrack, clear, decision_level, reason, assigned"])
p("Backtracking is exact",
  "backtrack(L) removes exactly the variables whose level is above L, leaves level, reason and value of every other variable untouched, and makes L the current decision level; in particular undoing any run of decisions and propagations made above level L gives back the state at the time level L was left.",
  "all reachable trails, all levels, all runs of operations between two visits of a level",
  "needs an arbitrary amount of work between leaving and re-entering a level",
  ["src/Trail.h: backtrack", "src/Model.h: clear"])
p("Learned clauses are implied",
  "The clause returned by conflict analysis is a logical consequence of the conflict clause together with the reason clauses stored in the trail.",
  "all trails, all conflict clauses, all total assignments",
  "the claim is about all assignments, for derivations of any length",
  ["src/Conflict_analysis.h: analyze", "src/Conflict_analysis.cpp: init, resolve, finish"])
p("Learned clauses are conflicting and backjump-ready",
  "For a conflict clause that is false in the trail, the analysed clause is false in the trail, contains no duplicate literal, is ordered by decision level from the highest to the lowest, and the returned level is below the clause's highest level: after backtracking to it the clause has exactly one unassigned literal (UIP) or at least two that share the old top level (semantic split); an empty clause is returned only with level -1.",
  "all well-formed trails and all conflict clauses false in them",
  "depends on the shape of arbitrary implication graphs",
  ["src/Conflict_analysis.h: analyze, can_backtrack", "src/Conflict_analysis.cpp: finish", "src/Solver.cpp: is_semantic_split"])
p("Clause minimisation is sound",
  "Minimising a learned clause only removes literals, and the shorter clause is still implied by the original clause and the reasons in the trail, even though redundancy is judged against a clause that is being compacted in place.",
  "all clauses and all trails with acyclic reasons",
  "soundness of removing several literals that justify each other is a global property of the implication graph",
  ["src/Subsumption.cpp: minimize, is_redundant"])
p("Subsumption never changes the problem",
  "Removing subsumed clauses leaves a clause set logically equivalent to the one before: every removed clause is a superset of a clause that is still present at the end.",
  "all clause databases and all total assignments",
  "chains of mutually subsuming or duplicate clauses of any length must not delete each other",
  ["src/Subsumption.cpp: remove_subsumed, subsumes, index", "src/Subsumption.h: make_proxy"])
p("Luby restart sequence",
  "As long as the interval fits into an int, the i-th restart interval of the Luby policy is the i-th term of the Luby sequence times the multiplier, and a restart is requested exactly when at least that many clauses were learned since the last restart.",
  "all sequence indices below 2^32 - 1; all event histories whose intervals fit into an int",
  "the sequence is defined by unbounded recursion; tests check a prefix",
  ["src/Restart.h: Luby_restart::luby, on_restart, on_learned_clause, should_restart"])
p("Glucose restart gating",
  "The Glucose policy never requests a restart before its minimum number of learned clauses since the last restart, and the LBD it feeds into the averages is exactly the number of distinct decision levels in the learned clause.",
  "all event histories and all learned clauses",
  "ranges over every clause and every history of events",
  ["src/Restart.h: Glucose_restart"])
p("Variable priority queue refines a priority map",
  "After any sequence of push/pop/update/rescale operations the queue behaves as a finite map from variables to scores: membership and scores agree with the map, no variable is stored twice, and top() is a variable that no other stored variable precedes in the (score, type, ordinal) order.",
  "all operation sequences, all scores, all numbers of variables",
  "the heap shape depends on the whole history",
  ["src/variable_order/Variable_priority_queue.h", "src/variable_order/Variable_priority_queue.cpp: push, pop, update, fix_up, fix_down"])
p("Branching picks an unassigned variable iff there is one",
  "pick() returns a variable that is unassigned, and returns nothing only if every variable is assigned (so 'sat' is never reported with an open variable); EVSIDS returns one of maximal score.",
  "all trails, all score tables",
  "an omission only shows for particular assignment patterns",
  ["src/variable_order/First_unassigned.cpp: pick", "src/variable_order/Evsids.cpp: pick"])
p("Unit propagation is sound",
  "Every literal added by propagation is implied by a clause of the database whose other literals are all false, that clause is recorded as its reason with the propagated literal first, and a returned conflict is a database clause that is false in the trail.",
  "all clause databases, all reachable trails",
  "must hold for every watch-list state reachable by any history",
  ["src/bool/Bool_theory.cpp: propagate, falsified, replace_second_watch"])
p("Unit propagation is complete",
  "When propagation returns without a conflict, no clause of the database is false and no clause has all literals but one false with the last one unassigned.",
  "all clause databases, all histories of decisions, propagations, backtracks, learned clauses and restarts",
  "the watched-literal invariant must survive every backtrack without any work being done",
  ["src/bool/Bool_theory.cpp: propagate, initialize, on_learned_clause, falsified"])
p("unsat answers are right (propositional)",
  "If check() returns unsat then no assignment satisfies the asserted clauses.",
  "all sets of non-empty clauses, all branching, phase and restart choices",
  "unsatisfiability is a claim about every assignment",
  ["src/Solver.cpp: check, analyze_conflicts, learn, backtrack_with, restart"])
p("sat answers are right (propositional)",
  "If check() returns sat then the model is defined on every variable and satisfies every asserted clause.",
  "all sets of non-empty clauses, all branching, phase and restart choices",
  "must hold at the end of any search",
  ["src/Solver.cpp: check, pick_variable, decide", "src/bool/Bool_theory.cpp"])
p("Learning keeps the clause set",
  "learn() adds each distinct analysed clause exactly once, drops semantic splits only if at least one propagating clause is kept, never drops all clauses, and returns exactly the added clauses.",
  "all lists of analysed clauses",
  "all multisets of clauses, duplicates in any order",
  ["src/Solver.cpp: learn, is_semantic_split"])
p("Repeated check() calls",
  "A second check() on the same solver answers for all clauses asserted so far.",
  "all clause sets and all extensions asserted between two check() calls",
  "needs two runs with arbitrary clauses in between",
  ["src/Solver.cpp: init, check", "src/bool/Bool_theory.cpp: initialize, propagate"])
p("Rational arithmetic is exact",
  "Addition, subtraction, multiplication, division, negation and comparison of rationals (and the assigning forms) give the mathematically exact result for all operands, including every operand for which a 32- or 64-bit intermediate result overflows; no intermediate signed overflow, truncation or division by zero occurs on the fast path (division by zero excepted, which aborts).",
  "all pairs of rationals, in the word and in the big representation",
  "2^64 operand pairs on the fast path, unboundedly many on the slow path; boundary cases hide in the overflow checks",
  ["src/lra/Long_fraction.h: addition, substraction, multiplication, division, additionAssign, substractionAssign, multiplicationAssign, divisionAssign, compare, operator-"])
p("Rational canonical form",
  "Every result of an arithmetic operation is in lowest terms with positive denominator and uses the word representation whenever it fits, so equal values have equal representations and equal hashes and isZero/isOne style tests are exact.",
  "all values reachable by arithmetic",
  "representation invariants over unbounded operation sequences",
  ["src/lra/Long_fraction.h: operator==, getHashValue, isZero, isOne, try_fit_word"])
p("Rational construction from numerator and denominator",
  "Constructing a rational from a signed numerator n and a positive denominator d denotes n/d.",
  "all 32-bit numerators and all positive 32-bit denominators",
  "2^64 inputs",
  ["src/lra/Long_fraction.h: Long_fraction(word, uword)"])
p("Rational rounding",
  "floor and ceil return the greatest integer not above and the least integer not below the value; isInteger is exact.",
  "all rationals",
  "sign and boundary cases over an unbounded domain",
  ["src/lra/Long_fraction.h: ceil, floor, isInteger"])
p("Rational inverse and remainder",
  "inv() and inverse() return the reciprocal of a non-zero rational; operator% agrees between its word and big-number paths (floored remainder).",
  "all non-zero rationals, all integer operand pairs",
  "representation-dependent code paths over an unbounded domain",
  ["src/lra/Long_fraction.h: inv, inverse, operator%"])
p("Normalising a linear constraint keeps its meaning",
  "The literal returned for sum(c_i * x_i) pred rhs is true in an assignment iff the given constraint is true in it, whatever the signs, scaling and zero coefficients; creating the constraint does not change the meaning of any earlier literal.",
  "all coefficient vectors with at least one non-zero coefficient, all predicates, all right-hand sides, all assignments, all earlier constraints",
  "sign, scaling and zero-coefficient cases over all rationals and all repositories",
  ["src/lra/Linear_constraints.h: make, find_norm_constant, norm_pred, add", "src/lra/Linear_constraint.h"])
p("Linear constraint deduplication",
  "Two constraints that are positive multiples or permutations of each other get the same literal; a constraint and its negation-by-scaling get opposite literals; constraints that receive the same variable are equivalent up to negation; equal constraints hash equally.",
  "all pairs of constraints over any number of variables",
  "hash/equality agreement and order-independence over all permutations",
  ["src/lra/Linear_constraints.h: make", "src/lra/Linear_constraint.h: Linear_constraint_hash, Linear_constraint_equal"])
p("Linear constraint evaluation and negation",
  "eval() of a constraint on a full assignment is the truth value of the inequality; the negated constraint has the complementary value; is_strict() says exactly whether equality of both sides is excluded; implied_value() is the value the remaining variable takes at equality.",
  "all constraints, all assignments",
  "ranges over all rational assignments",
  ["src/lra/Linear_constraint.h: eval, operator~, is_strict, implied_value", "src/lra/Linear_constraints.h: eval, implied_value"])
p("Linear polynomial operations",
  "add, sub, negate, subtract_var and sort change the value of a polynomial exactly as the operation says, in every assignment; after add/sub every variable occurs at most once and with non-zero coefficient if the operands were normal.",
  "all polynomials, all assignments",
  "in-place merging with erasure over arbitrary variable overlaps",
  ["src/utils/Linear_polynomial.cpp: add, sub, negate, sort, subtract_var", "src/lra/Lra_conflict_analysis.h: Linear_polynomial::normalize"])
p("Fourier-Motzkin resolution is sound",
  "If an assignment satisfies both constraints that are resolved on a variable, it satisfies the derived constraint, and the derived constraint no longer contains the variable.",
  "all pairs of constraints that bound the variable from opposite sides (or where one is an equality), all assignments",
  "sign conventions over all rational coefficients",
  ["src/lra/Lra_conflict_analysis.cpp: Fm_elimination::init, resolve, combine"])
p("Bound conflict explanations are valid lemmas",
  "The clause reported for a pair of crossing bounds is valid in linear real arithmetic: every assignment of the rational variables makes one of its literals true; and it is false in the current trail.",
  "all trees of derived bounds of any depth, all assignments",
  "derivations have unbounded depth",
  ["src/lra/Lra_conflict_analysis.cpp: Lra_conflict_analysis::eliminate, Bound_conflict_analysis::analyze, Fm_elimination::finish"])
p("Inequality conflict explanations are valid lemmas",
  "The clause reported for L <= x, x <= U, x != D with equal values of L, U, D is valid in linear real arithmetic.",
  "all bound derivations, all disequalities, all assignments",
  "two Fourier-Motzkin derivations with sign-dependent multipliers",
  ["src/lra/Lra_conflict_analysis.cpp: Inequality_conflict_analysis::analyze"])
p("Implied bounds are sound",
  "Every bound or disallowed value recorded for a variable from the constraints on the trail (directly or by bound propagation) holds in every assignment that agrees with the trail on the assigned rational variables and satisfies the constraints on the trail; strictness is reported exactly.",
  "all trails, all constraints, all chains of deductions, all assignments",
  "derived bounds are chained without limit",
  ["src/lra/Bounds.cpp: update, deduce_from_equality, deduce_from_inequality", "src/lra/Variable_bounds.h: Implied_value::is_strict"])
p("Bounds queries see only live bounds and return the tightest",
  "upper_bound()/lower_bound() never return a bound whose reason or assigned variables were retracted or changed since it was computed, and the returned bound is at least as tight as every live bound that was added.",
  "all histories of adding bounds, assigning and backtracking",
  "depends on time stamps over unbounded histories",
  ["src/lra/Variable_bounds.h: Implied_value::is_obsolete, Variable_bounds::upper_bound, add_upper_bound, remove_obsolete", "src/Model.h: timestamp"])
p("Values decided for rational variables are allowed",
  "If some value satisfies the bounds and avoids the disallowed values of a variable, deciding the variable terminates and chooses such a value.",
  "all consistent bounds and all finite sets of disallowed values",
  "search loops without an explicit bound",
  ["src/lra/Linear_arithmetic.cpp: decide, find_integer", "src/lra/Variable_bounds.h: is_allowed"])
p("Implied constraints are implied",
  "A constraint reported as implied by the current bounds is true in every assignment within these bounds that agrees with the trail.",
  "all constraints, all bounds, all assignments",
  "ranges over all rational assignments",
  ["src/lra/Bounds.cpp: is_implied", "src/lra/Linear_arithmetic.cpp: propagate_unassigned"])
p("Function conflicts are congruence instances",
  "Every conflict clause reported by the uninterpreted-function plugin is valid: in every interpretation, if the listed argument equalities hold then so does the listed equality of the two applications.",
  "all application terms, all trails, all interpretations",
  "validity is about every interpretation of the functions",
  ["src/uf/Uninterpreted_functions.cpp: add_function_value, assert_equality"])
p("Function tables are functional and complete",
  "At a 'sat' answer the reported function model maps each argument tuple of an application to the value of that application.",
  "all registered applications, all assignment histories",
  "one-variable watching over unbounded histories",
  ["src/uf/Uninterpreted_functions.cpp: propagate, add_function_value, on_before_backtrack, get_model, Assignment_watchlist"])
p("Hash-consing of terms",
  "Building a term with the same kind, type and arguments (or the same constant) twice gives the same handle, different descriptions give different handles, and no later construction changes what an existing handle denotes.",
  "all sequences of term constructions",
  "histories are unbounded and hash collisions must not matter",
  ["src/terms/Terms.cpp: or_term, arithmetic_constant, arithmetic_product, construct_composite", "src/terms/Term_hash_table.cpp"])
p("Boolean term construction keeps the meaning",
  "The terms returned for or, and, not, implies, iff, xor, ite and distinct evaluate to the corresponding connective of their arguments under every interpretation, in spite of all simplifications.",
  "all argument lists, all interpretations",
  "simplification rules interact for arbitrary argument lists",
  ["src/terms/Term_manager.cpp: mk_or, mk_and, mk_binary_or, mk_implies, mk_iff, mk_xor, mk_bool_ite, mk_term"])
p("Arithmetic term construction keeps the meaning",
  "The terms returned for +, -, unary -, * by a constant, / by a non-zero constant, <=, <, >=, >, = and real ite evaluate to the corresponding operation on the values of the arguments under every interpretation.",
  "all argument terms, all interpretations",
  "normalisation to polynomials of any size",
  ["src/terms/Term_manager.cpp: mk_arithmetic_plus, mk_arithmetic_minus, mk_arithmetic_times, mk_divides, mk_arithmetic_geq, mk_arithmetic_eq, poly_to_term, term_to_poly", "src/terms/Arithmetic_polynomial.h: merge"])
p("Polynomial terms are canonical",
  "Linear terms built by the term manager that denote the same polynomial have the same handle, so that equality of two such terms is recognised as true.",
  "all ways of building linear terms",
  "all construction orders",
  ["src/terms/Term_manager.cpp: mk_arithmetic_times, poly_to_term, mk_arithmetic_eq"])
p("Decimal literals are read exactly",
  "A decimal literal with any number of digits denotes exactly the rational number it spells.",
  "all digit strings",
  "literals of any length",
  ["src/terms/Term_manager.cpp: mk_rational_constant, mk_integer_constant"])
p("Applying a defined function substitutes its arguments",
  "An application of a function introduced by define-fun denotes the body with the formal parameters replaced by the actual arguments.",
  "all bodies and all arguments",
  "arbitrary term structure",
  ["src/terms/Term_rewriter.h: Rewriter::rewrite, VarSubstituteConfig", "src/parser/Parser_context.cpp: resolve"])
p("let scoping",
  "Inside any nesting of let expressions a symbol denotes the innermost binding in scope, and leaving a let restores exactly the bindings that were visible before it.",
  "all nestings and all shadowings",
  "unbounded nesting",
  ["src/parser/Parser_context.h: Let_records, Let_binder", "src/parser/Parser_context.cpp: add_let_bindings, pop_let_bindings"])
p("CNF conversion is equisatisfiable",
  "The clauses and linear constraints asserted for a formula are satisfiable exactly when the formula is: every interpretation satisfying the assertions extends to the auxiliary variables, and every model of the clauses satisfies the assertions when restricted to the original variables.",
  "all sets of assertions, all interpretations",
  "term graphs of any shape and depth",
  ["src/parser/Solver_wrapper.cpp: Internalizer_config::visit, internalize_poly, Solver_wrapper::check", "src/terms/Term_visitor.h: visit"])
p("Several check-sat commands in one script",
  "Each check-sat answers for the conjunction of all assertions made so far.",
  "all scripts",
  "all interleavings of assert and check-sat",
  ["src/parser/Solver_wrapper.cpp: check", "src/Yaga.cpp: init", "src/parser/Smt2_parser.cpp: parse_command"])
p("DIMACS input is read faithfully",
  "For every well-formed DIMACS CNF file the solver receives exactly the clauses of the file over the declared variables; files with a missing or repeated header, out-of-range literals or too few clauses are rejected.",
  "all input texts of the DIMACS grammar",
  "arbitrary layouts of clauses over lines",
  ["src/sat_solver.cpp: parse_dimacs"])
p("unsat answers are right (with theories)",
  "If every conflict clause returned by the theory plugins is valid in the theory, an unsat answer of check() means that no theory model satisfies the asserted clauses.",
  "all clause sets, all theories satisfying the contract, all runs",
  "a claim about all models and all runs",
  ["src/Solver.cpp: check", "src/Theory_combination.cpp: propagate", "src/Theory.h"])
p("Theory combination reaches a fixpoint",
  "Combined propagation returns either conflicts of one plugin or a trail on which no plugin added anything in the last round, having called every plugin in order.",
  "all plugin behaviours that eventually stop adding assignments",
  "arbitrary interaction of plugins",
  ["src/Theory_combination.cpp: propagate, decide"])
p("Boolean value selection and phase saving",
  "Deciding a Boolean variable assigns exactly that variable at a new decision level, with the value prescribed by the configured phase (positive, negative, or the last value it had on the trail with the default as fallback).",
  "all histories of decisions and backtracks",
  "cached phases depend on the whole history",
  ["src/bool/Bool_theory.cpp: decide, on_before_backtrack"])
p("Event delivery",
  "Every event raised is delivered exactly once to each registered listener in registration order and to no removed listener.",
  "all histories of add/remove/raise",
  "all histories",
  ["src/Event_dispatcher.h: add, remove, on_*"])
p("Unit propagation terminates",
  "A call of propagate() of the Boolean plugin ends, and its result is determined by the state it was called in.",
  "all databases, watch lists, trails and stacks",
  "termination is a claim about unbounded runs",
  ["src/bool/Bool_theory.cpp: propagate, falsified, replace_second_watch"])
p("The check loop never gets stuck (propositional)",
  "In every state that the loop of check() reaches, propagation ends; after a conflict above level 0 conflict analysis succeeds, the backtrack level is between 0 and the current level and the learned clause is asserting there, never a semantic split; without a conflict the picked variable can be decided.",
  "all sets of non-empty clauses, all runs",
  "a claim about all reachable states",
  ["src/Solver.cpp: check, analyze_conflicts, backtrack_with, is_semantic_split", "src/bool/Bool_theory.cpp"])

p("The term parser reads syntax trees",
  "On the tokens of any term the parser makes the term its syntax tree stands for in the current scopes (arguments in order, let bindings in parallel, inner bindings shadowing outer ones), stops exactly after the term and leaves the bindings as they were; a tree that stands for no term is rejected.",
  "all terms of any depth, all nestings of let, all previous bindings, whatever follows",
  "unbounded nesting of two stacks in one loop",
  ["src/parser/Smt2_term_parser.cpp: parse_term", "src/parser/Parser_context.cpp: get_term_for_symbol, add_let_bindings"])

p("sat answers with uninterpreted functions are right",
  "When check() stops with all variables assigned, no conflict, true clauses and constraints that have their values, all assertions of the script hold in the interpretation given by the values on the trail and the function tables.",
  "all scripts with linear arithmetic and uninterpreted functions, all runs, all values of the functions outside the tables",
  "interaction of nested applications, the term conversion and tables kept over unbounded histories",
  ["src/uf/Uninterpreted_functions.cpp: propagate, get_model", "src/parser/Solver_wrapper.cpp: check, model", "src/Yaga.cpp: make_function_application"])

p("Watch lists of the arithmetic plugin",
  "In every state each linear constraint is watched exactly once by each of its first two variables and by nothing else, the first two variables are the last ones to be assigned (or not assigned), so a constraint becomes unit or fully assigned only when a watched variable is assigned; no assertion of the plugin fails and the bounds are only used as their contracts presuppose.",
  "all histories of variables, constraints, propagations, decisions, backtracks, semantic splits and restarts",
  "lists are permuted and moved between variables over unbounded histories",
  ["src/lra/Linear_arithmetic.cpp: propagate, watch, replace_watch, check_watch_consistency", "src/lra/Linear_arithmetic.h: constraint"])
p("Literals and values of linear constraints agree",
  "In every state the literal of a constraint whose variables are all assigned is not assigned to the opposite of its value, after a propagation it is assigned to its value, and every clause that the plugin returns is valid in linear arithmetic and has only false literals on the trail.",
  "all histories of the plugin, all settings of its options",
  "the claim is about arbitrary interleavings of Boolean and rational assignments",
  ["src/lra/Linear_arithmetic.cpp: propagate, finish, check_bounds", "src/lra/Lra_conflict_analysis.cpp: analyze"])
p("Bounds of unassigned variables are complete",
  "When the plugin has looked at all assignments of the current level without a conflict, every value that the bounds of an unassigned variable allow satisfies all true constraints that are unit in the variable; when all variables are assigned, their values satisfy exactly the constraints whose literals are true.",
  "all histories of the plugin",
  "bounds are kept, dropped and re-derived over unbounded histories of backtracking",
  ["src/lra/Linear_arithmetic.cpp: propagate, unit, decide, check_bounds_consistency", "src/lra/Bounds.cpp: update, deduce"])

p("unsat answers for linear arithmetic are right",
  "When check() returns unsat for a set of clauses and linear constraints (Boolean plugin and arithmetic plugin on one trail, with conflicts, learned clauses, semantic splits, restarts and derived constraints), no truth values and rational values satisfy all clauses and give the literals of the constraints the truth values of their constraints.",
  "all sets of non-empty clauses over declared variables and constraints, all runs, all restart policies, all values of the options, every variable order that picks unassigned variables",
  "soundness is about all runs of two interacting plugins, and about all rational values",
  ["src/Solver.cpp: check, learn, restart, backtrack_with", "src/Theory_combination.cpp: propagate", "src/bool/Bool_theory.cpp", "src/lra/Linear_arithmetic.cpp"])

p("sat answers for linear arithmetic are right",
  "When check() returns sat for a set of clauses and linear constraints, every declared variable has a value on the trail, the truth values satisfy all clauses and the literal of every constraint has the truth value of the constraint under the rational values; hence no other run with other options can return unsat.",
  "all sets of non-empty clauses over declared variables and constraints, all runs, all restart policies, all values of the options, every variable order that picks unassigned variables until there is none",
  "needs completeness of propagation in two interacting plugins over unbounded histories with backtracking, semantic splits and restarts",
  ["src/Solver.cpp: check, learn, restart, backtrack_with", "src/Theory_combination.cpp: propagate", "src/bool/Bool_theory.cpp", "src/lra/Linear_arithmetic.cpp"])

p("Conflict handling for linear arithmetic does not fail",
  "Whenever propagation reports conflicts, conflict analysis succeeds and gives the empty clause or clauses with a level below the current one; the assertions of backtrack_with hold: all clauses are semantic splits or none is, the literals that can be decided in a split have no reason and are unassigned after backtracking, the level that is undone was started by deciding a rational variable; otherwise the first literal of each clause is unassigned and the others are false after backtracking.",
  "all reachable states of check() for clauses and linear constraints, all conflicts, all values of the options, every variable order that picks unassigned variables",
  "assertions about decision levels and reasons after arbitrary histories of late propagations, splits and backtracks",
  ["src/Solver.cpp: check, learn, is_semantic_split, backtrack_with (assertions at 102-104, 113, 122, 123, 132-134)", "src/Conflict_analysis.cpp: analyze"])

p("Answers for scripts in linear arithmetic are right",
  "For the first check-sat of a script: after the conversion of the asserted terms, the arithmetic plugin has exactly the variables and constraints that the conversion created and check() starts in a state for which the properties of the solver hold; if it returns unsat, no interpretation makes all assertions true; if it returns sat, the values on the trail are the values of the constants in an interpretation that makes all assertions true.",
  "all tables of terms, all lists of asserted Boolean terms whose conversion succeeds, all runs of check()",
  "composes conversion of unboundedly large terms with all runs of the solver; a wrong answer needs a combination that no fixed set of scripts covers",
  ["src/parser/Solver_wrapper.cpp:23-80 (check)", "src/parser/Internalizer.cpp", "src/Yaga.h:174-205 (linear_constraint, assert_clause)", "src/Solver.cpp:188-228 (check)"])

p("Deciding a rational variable finds a value and check() does not get stuck",
  "Unless the arithmetic plugin has just returned conflict clauses, the recorded bounds and inequalities of every rational variable allow a value; so the search for a value in decide ends, the value satisfies all true constraints that are unit in the variable, the loop of Theory_combination::propagate ends, and in every reachable state check() makes its next iteration: it returns an answer or iterates for ever.",
  "all histories of the plugin in which literals are not propagated late; all reachable states of check() for clauses and linear constraints, all values of the options, every total variable order that picks unassigned variables",
  "a missed conflict of bounds is an endless loop after a particular history of backtracking; absence of it is a claim about all histories",
  ["src/lra/Linear_arithmetic.cpp:506-545 (decide)", "src/lra/Linear_arithmetic.cpp:259-271 (check_bounds), 328-359 (finish)", "src/Theory_combination.cpp: propagate", "src/Solver.cpp:188-228 (check)"])

p("The variable order of the arithmetic solver keeps its answers right",
  "With the variable order Generalized_vsids, which asks the arithmetic plugin for effectively decided variables and learns of derived constraints during the run: in every state of check() it picks only declared variables without a value and picks none only when all have values, although a restart forgets the variables of level 0; so unsat and sat answers are right without assumptions on the order, and without --prop-rational no assertion of the order fails and check() does not get stuck. With --prop-rational an assertion of the priority queue can fail.",
  "all sets of non-empty clauses over declared variables and constraints, all runs, all restart policies, all values of the options, all scores and events for learned clauses",
  "a lost variable would be a wrong sat answer after a particular history of restarts, and depends on both plugins deriving level 0 again",
  ["src/variable_order/Generalized_vsids.cpp", "src/variable_order/Variable_priority_queue.cpp", "src/lra/Linear_arithmetic.cpp: is_effectively_decided", "src/Solver.cpp:159-228"])

p("Fractions of machine integers compute exactly or stop",
  "Fraction<int>: the constructor gives the fraction in lowest terms with positive denominator; sum, product, difference, quotient, negation and inverse of such fractions are again such fractions with the exact value, or an assertion fails or behaviour is undefined, and that only if no fraction of 32-bit integers has the exact value; 64-bit intermediate results never overflow; comparisons agree with those of the numbers; conversion to int rounds towards zero.",
  "all fractions of 32-bit integers in lowest terms, all integers, all computations with the operators",
  "overflow depends on numerators and denominators near the limits; the pairs of fractions are too many to try",
  ["src/lra/Fraction.h:22-29, 49-54, 132-135 (constructors, conversion, inv)", "src/lra/Fraction.h:181-346 (comparisons)", "src/lra/Fraction.h:429-639 (operators)"])

p("The propositional solver terminates and decides satisfiability",
  "check() of the solver with the Boolean plugin alone ends after finitely many iterations, at most 4^n (n+1) + n for n variables: every conflict adds a clause that no clause of the database subsumes, whatever is removed at restarts; it can answer unsat exactly if the asserted clauses are unsatisfiable and sat exactly if they are satisfiable.",
  "all sets of non-empty clauses over declared variables, all runs, all restart policies, all scores and events of the variable order",
  "termination is a claim about unboundedly long runs; restarts together with removal of clauses could make the solver repeat itself",
  ["src/Solver.cpp:188-228 (check), 178-186 (restart)", "src/Solver.cpp:97-147 (backtrack_with)", "src/Subsumption.cpp: remove_subsumed", "src/Conflict_analysis.cpp: analyze", "src/bool/Bool_theory.cpp: propagate"])

p("The answers of the solver for QF_UFLRA are right",
  "For the first check-sat of a script with linear real arithmetic and uninterpreted functions, with the Boolean, the arithmetic and the function plugin on one trail: if check() returns unsat, no interpretation of constants and functions makes all assertions true; if it returns sat, the assertions are true in the interpretation read off the trail and the function tables; no assertion of the arithmetic plugin about the values of constraints fails, although the function plugin creates constraints and assigns their literals during the search.",
  "all tables of terms, all Boolean assertions, all runs of check(), all restart policies, all values of the options, every variable order that picks unassigned variables and stops only when all are assigned",
  "the answer depends on three plugins that change one trail in turn, on levels at which literals are propagated late, and on unboundedly many conflicts and restarts",
  ["src/Yaga.cpp:38-60 (Qf_uflra::setup)", "src/Solver.cpp:188-228 (check)", "src/Theory_combination.cpp:8-29 (propagate)", "src/uf/Uninterpreted_functions.cpp:65-137 (propagate), 270-315 (assert_equality)", "src/lra/Linear_arithmetic.cpp:37-84 (propagate)"])

p("The solver for QF_UFLRA does not get stuck",
  "For the first check-sat of a script with linear real arithmetic and uninterpreted functions: in every state of check() the propagation of the three plugins ends, evaluating the arguments of functions and creating equalities between them does not fail, after a conflict the analysis finds a clause and a lower level and the assertions of backtrack_with hold also for conflicts of the function plugin (whose literals are assigned without reason, in the middle of a level), and without a conflict a value is found for the variable to decide; so check() returns an answer or makes iterations for ever.",
  "all tables of terms, all Boolean assertions, all runs of check(), all restart policies, all values of the options, every variable order that picks unassigned variables and answers",
  "a failing assertion or an exception needs a particular interplay of three plugins; endless propagation would look like a slow run",
  ["src/Solver.cpp:97-148 (backtrack_with), 188-228 (check)", "src/Theory_combination.cpp:8-29 (propagate)", "src/uf/Uninterpreted_functions.cpp:65-137 (propagate), 270-315 (assert_equality)", "src/Conflict_analysis.cpp: analyze", "src/lra/Linear_arithmetic.cpp:506-545 (decide)"])

p("The variable order of the solver for QF_UFLRA keeps its answers right",
  "In the solver for QF_UFLRA with Generalized_vsids on the trail that the three plugins share: every variable picked is declared and unassigned, also if it was created during the search by the arithmetic or the function plugin, and none is picked only if all variables are assigned, also after restarts; so the answers unsat and sat are right without any assumption on the order, and without --prop-rational check() does not get stuck.",
  "all tables of terms, all Boolean assertions, all runs of check(), all scores, all restart policies",
  "a variable missing from the queue is noticed only when a run needs exactly that variable, after a restart or after creation of a constraint by a plugin",
  ["src/variable_order/Generalized_vsids.cpp", "src/variable_order/Variable_priority_queue.cpp", "src/Solver.cpp:159-228", "src/uf/Uninterpreted_functions.cpp:270-315 (assert_equality)"])

p("The response to get-model describes a model of the assertions",
  "After the answer sat to the first check-sat, the text written by get-model is one list of definitions of SMT-LIB (define-fun). There is an interpretation of the symbols that agrees with all definitions, and in every interpretation that agrees with them all assertions are true, whatever it assigns to symbols that are not printed. Numbers are printed as terms with their exact value, also negative numbers, fractions and numbers that do not fit into a word; functions are printed as nested conditionals with the values of the table and one of them as default.",
  "all tables of terms, all assertions, all runs of check() that return sat, all orders of the hash maps, all numbers",
  "a test compares a few outputs; a wrong sign, a wrong default value or a missing parenthesis shows only for particular values, arities and numbers of entries",
  ["src/parser/Smt2_parser.cpp:20-149 (Print_model), 323-328 (get-model)", "src/parser/Solver_wrapper.cpp:50-66, 90-119 (model)", "src/lra/Long_fraction.cpp:80-95 (print)", "src/uf/Uninterpreted_functions.cpp:368-378 (get_model)", "src/terms/Terms.cpp:217-225 (get_term_name)"])

p("The lexer returns the tokens of SMT-LIB",
  "For every text the tokens returned by successive calls of next_token are those of the rule of flex (longest match, then first rule), and the lexer throws exactly where that rule selects the error rule. If a text consists of tokens of the standard (parentheses, reserved words, simple and quoted symbols, keywords, numerals, decimals, hexadecimal and binary constants, strings with doubled quotes) in any layout of white space and comments, the lexer returns exactly these tokens with their texts.",
  "all texts; all sequences of tokens of the standard and all layouts",
  "the rules overlap (words and symbols, numerals and decimals, quotes inside strings), a wrong boundary shows only for particular neighbours",
  ["src/parser/smt2_lexer.ll:21-86", "src/parser/Flex_lexer.cpp:7-46", "src/parser/smt2_tokens.h"])

p("The terms made for a script mean what the script says",
  "If a well-formed script of declarations, definitions of constants and assertions over the theories Core and Reals and uninterpreted functions is accepted, the terms made for its assertions have, in every interpretation, the values that the asserted terms have in SMT-LIB in the corresponding structure (sorts respected, defined constants equal to their definitions, let parallel and shadowing, numerals and decimals exact, all theory symbols with the semantics of the standard), and every structure corresponds to an interpretation. So the terms are satisfiable if and only if the script is.",
  "all scripts, all nestings of let and of terms, all numbers of arguments, all hash functions",
  "tests cover a few shapes of terms; a wrong operator for one arity, a swapped argument, a wrong scope or a simplification that changes the value shows only for particular terms and values",
  ["src/parser/Parser_context.cpp:23-47 (get_term_for_symbol), 78-172", "src/terms/Term_manager.cpp:155-310 (mk_term, mk_app, mk_eq)", "src/parser/Smt2_term_parser.cpp:51-218 (parse_term)", "src/parser/Smt2_parser.cpp:196-271", "src/terms/Terms.cpp:196-232 (names)"])

p("The answer printed for a script is the truth about the script",
  "From the characters of a script to the line that is printed: if the first line printed is sat, the assertions before the first check-sat have a model in SMT-LIB; if it is unsat, they have none. The commands may be laid out with any white space and comments and may use quoted symbols, let, definitions of constants and options. If the terms of a script can be made, the answer of the solver for these terms is the first line printed.",
  "all scripts in QF_LRA and (within the fragment of C68) QF_UFLRA, all layouts, all runs of the solver, all hash functions, scores, options and restart policies",
  "the answer depends on the lexer, the term parser, the term manager, the conversion to clauses, three plugins and the search together; tests compare it with an oracle for a few scripts",
  ["src/parser/Smt2_parser.cpp:154-437 (Smt2_command_context)", "src/parser/Smt2_term_parser.cpp:220-312 (token_to_symbol, parse_sort, parse_sort_list, parse_sorted_var_list)", "src/parser/Solver_wrapper.cpp:23-80 (check)", "src/Solver.cpp:159-228"])

p("Linear scripts are accepted and their answer is printed",
  "Every well-formed script of declarations, definitions of constants and assertions whose terms are linear is accepted: no assertion of the term manager fails, no exception is thrown, and every assertion makes a term. Linear means: = , the comparisons, => and xor have two arguments, - has one or two, one of two factors is a constant expression, divisors are constant expressions different from 0, and the arguments of = and distinct are not constant multiples of constant multiples. If the script is written with set-logic and check-sat around it, and the solver returns, the first line printed is sat and the script is satisfiable, or it is unsat and the script is unsatisfiable.",
  "all scripts of the fragment, all nestings of let and of terms, all numbers of arguments, all hash functions, all layouts",
  "an exception inside an assertion loses the assertion and the script goes on; whether one is thrown depends on how terms were simplified before, e.g. on coefficients that cancel",
  ["src/terms/Term_manager.cpp:155-750", "src/parser/Parser_context.cpp:23-172", "src/parser/Smt2_term_parser.cpp:51-218", "src/parser/Smt2_parser.cpp:176-437"])

p("A linear script gets its answer or the search goes on for ever",
  "For the first check-sat of a linear script nothing but three things can happen: the first line printed is sat and the script is satisfiable; it is unsat and the script is unsatisfiable; or the loop of Solver::check goes on for ever. In particular the conversion to clauses and constraints does not fail, the solver has a first state, propagation ends, conflict analysis and backtracking do not fail, a decided rational variable has an allowed value, and no assertion fails. QF_UFLRA: for functions that take and return reals and whose arguments are constants, variables, applications or conditional terms.",
  "all scripts of the fragment, all hash functions, all options except --prop-rational, all scores and restart policies of the variable order, debug and release builds (QF_UFLRA: release builds), all numbers of iterations",
  "a crash after thousands of conflicts needs one particular combination of trail, learned clauses, bounds and variable order; tests run a few scripts",
  ["src/parser/Smt2_parser.cpp:154-437 (Smt2_command_context)", "src/parser/Solver_wrapper.cpp:23-342", "src/Solver.cpp:1-228", "src/Theory_combination.cpp:8-29", "src/lra/Linear_arithmetic.cpp:1-545", "src/uf/Uninterpreted_functions.cpp", "src/variable_order/Generalized_vsids.cpp"])

p("The model printed for a script is a model of the script",
  "From the characters of a script to the text printed for get-model: let the script begin with set-logic, followed by its declarations, definitions and assertions, check-sat and get-model. If the first line printed is sat, the text printed after it is a list of definitions of SMT-LIB for symbols of the script. There is a structure for the symbols of the script (sorts respected, defined constants equal to their definitions) that agrees with all definitions, and in every such structure all assertions of the script have the value true in SMT-LIB. The symbols are written without bars. QF_UFLRA: in the fragment of C74.",
  "all scripts in QF_LRA and in the fragment of C74 for QF_UFLRA, all layouts, all runs of the solver, all hash functions, scores, options, restart policies and orders of the hash maps",
  "the printed text passes through the name tables, the conversion to variables and back, and the printer; a symbol printed with the value of another one shows only for particular scripts",
  ["src/parser/Smt2_parser.cpp:154-437, 20-149", "src/parser/Solver_wrapper.cpp:23-119", "src/terms/Terms.cpp:196-232 (names)", "src/parser/Parser_context.cpp:23-172"])

p("Integer operations on rationals are exact",
  "For canonical rationals get_num and get_den return the numerator and denominator in lowest terms; fastrat_fdiv_q of two integers returns the floor of the quotient; fastrat_round_to_int returns the nearest integer, rounding ties up; abs and cmpabs agree with the absolute value; divexact returns the quotient when it is an integer; gcd and lcm return the greatest common divisor and the least common multiple; none of them has undefined behaviour.",
  "For all canonical Long_fraction values, in both representations.",
  "The words are 32 bits wide and the interesting arguments (INT_MIN, -1, values just beyond a word) are a few among 2^64 pairs.",
  ["src/lra/Long_fraction.cpp:110-187", "src/lra/Long_fraction.h:241-266", "src/lra/Long_fraction.h:542-576", "src/lra/Long_fraction.h:1069-1075"])

p("get_multiplicand returns the least factor that removes all denominators",
  "For every list of rationals get_multiplicand terminates and returns the least positive integer m such that m times each of the numbers is an integer.",
  "For all lists of canonical Long_fraction values of any length.",
  "The loop combines two denominators at a time and cancels the others; a mistake in the cancelling shows only for particular combinations of prime factors in lists of at least three different denominators.",
  ["src/lra/Long_fraction.cpp:189-239"])

p("The program sat answers every file, and the answer for a DIMACS file is right",
  "From the characters of a file to the exit code: for every file the program sat ends, with exit code -1 and no answer, with the answer UNSAT and exit code 0, or with the answer SAT and exit code 1; it never prints ERROR and never goes on for ever. For a file in the DIMACS format with at most 2^31-1 variables and clauses, in any layout, the answer is SAT exactly if some assignment of the variables makes a literal of every clause true.",
  "all files (all lists of lines of any characters), all runs of the solver, all scores of the variable order, all restart policies",
  "the answer depends on reading, the watch lists, conflict analysis, restarts, subsumption and the order of the variables together; tests are a few files",
  ["src/sat_solver.cpp:16-155", "src/Solver.cpp:1-228", "src/Bool_theory.cpp", "src/variable_order/Evsids.cpp"])

p("Propagation in the Boolean plugin never leaves its memory and never fails an assertion",
  "Whenever check calls propagate of the Boolean plugin, every clause pointer that is followed (of watches, of reasons, of waiting literals) points to a clause of the database, every index of a clause, of a watch list and of the model is in range, no container is changed while a reference to its elements is in use, all loops end, and every assertion in the plugin holds: popped literals are true, their reasons imply them, watches are at the first two positions, the stored index is valid, conflicts are false and propagated clauses are unit. In the propositional solver the second watch of a unit or false clause also has the highest level of the false literals.",
  "all sets of clauses, all reachable states of check, any number of iterations, restarts and rounds, any other plugins whose conflicts are false clauses; in particular QF_LRA and (as in C68) QF_UFLRA",
  "a dangling or misplaced watch is followed only when particular literals become false in a particular order; assertions are compiled out of release builds",
  ["src/bool/Bool_theory.cpp:72-249", "src/Theory.cpp:5-17", "src/Theory_combination.cpp:8-29", "src/Solver.cpp:188-228"])

p("The smt program: options, exit code and answers from the command line to the standard output",
  "The words of the command line set exactly the options they name, in any order and number; the last path is the input; an unknown option is rejected with exit code -1 and no output; the exit code is 0 exactly if a path is given. For a well-formed script in the file, the program prints sat only if the script is satisfiable and unsat only if it is not, and a model printed after sat is a model of the script. For a linear script without rational propagation one of the two answers is printed unless the search is endless.",
  "all command lines, all files, all well-formed scripts of QF_LRA and QF_UFLRA in the stated fragments, all runs of the solver",
  "the tests call the parser with a fixed set of options; no test covers the combinations of options, repeated paths or values of options that look like paths",
  ["src/smt_solver.cpp:23-91", "src/Options.h:10-31", "src/Yaga.cpp:7-67", "src/parser/Solver_wrapper.cpp:69-76"])

p("The search makes progress between restarts",
  "Every iteration of check that is not a restart and creates no new Boolean variable makes the trail larger in a well-founded order. With n variables, at most (2(n+1))^(n+1) iterations follow each other without restart and without new constraint, for every variable order and phase. So a search that does not end restarts infinitely often or creates constraints without bound. An iteration leaves an empty trail exactly if it is a restart.",
  "all sets of clauses and constraints, all reachable states of QF_LRA and QF_UFLRA, all variable orders that pick unassigned variables, any number of iterations",
  "a cycle of backtracks (for instance, splitting on a decision that is made again) shows only as a timeout on particular inputs",
  ["src/Solver.cpp:70-228", "src/Trail.h:16-290", "src/Conflict_analysis.cpp", "src/Theory_combination.cpp:8-29"])

p("Every event reaches every part of the solver",
  "However the solver is put together (set_theory, set_variable_order, set_restart_policy, add_theory, add, set_model, resize, in any order and repeatedly), an event that the solver raises reaches the subsumption first, then each theory plugin, the restart policy and the variable order that are in use, each exactly once, and nothing that was replaced. The subsumption and every plugin, whenever it was added, know the current number of variables of each type; after init also the orders and the restart policy do. Orders inside Combined_order get the same events as other orders. The counters that the solver reports are those of the last check.",
  "all sequences of set-up calls and events, all sequences of counted steps",
  "the tests build solvers in one fixed order and never replace a part or add a plugin after variables were created",
  ["src/Solver.h:71-197", "src/Solver.cpp:5-11, 159-186", "src/Event_dispatcher.h:21-119", "src/Theory_combination.h:86-123", "src/Theory_combination.cpp:40-90", "src/variable_order/Combined_order.h:29-116", "src/Yaga.cpp:7-57", "src/Trail.cpp:6-18"])

p("No assertion of the arithmetic plugin fails while it derives conflicts or chooses values",
  "In every history of the arithmetic plugin, and so in every run of the solver for QF_LRA, every assertion on the way through propagate, check_bounds, the Fourier-Motzkin elimination and decide holds, nothing is divided by zero, and no iterator at the end, null bound or empty optional is dereferenced: every constraint given to the elimination has variables and is no disequality, every eliminated variable occurs in both polynomials with a coefficient that is not zero and occurs no more in the result, the derived constraint is false on the trail, a bound is added only for a constraint on the trail whose first variable is its only unassigned one, and when no integer fits both bounds exist with the lower one not above the upper one.",
  "all histories of the plugin (any calls in any order that the solver may make), all options, all hash functions, all runs of the loop for QF_LRA",
  "the assertions are compiled out in release builds, and in debug builds the tests reach them only with the few states of their formulas",
  ["src/lra/Lra_conflict_analysis.cpp:6-152", "src/lra/Linear_arithmetic.cpp:37-88, 259-381, 395-545", "src/lra/Bounds.cpp:276-312", "src/lra/Variable_bounds.h:70-104"])

p("The consistency checks of the arithmetic plugin succeed",
  "In every state after propagation without conflict, a constraint on the trail with exactly one unassigned variable is reflected in the bounds of that variable: its upper bound is at most every number that the constraint forces as an upper bound, and the same for lower bounds. Therefore check_bounds_consistency, which recomputes all bounds from the unit constraints on the trail, succeeds; and check_watch_consistency succeeds in every state except between a decision and the next propagation.",
  "all histories of the plugin (any calls in any order that the solver may make), all options, all hash functions, all runs of the loop for QF_LRA",
  "the checks are debugging code that no released build runs; they look at one state at a time",
  ["src/lra/Linear_arithmetic.cpp:547-645"])
p("Constraints propagated without being on the trail are implied",
  "propagate_unassigned only adds Boolean assignments at the current level without a reason, each for a constraint with the rational variable decided last that was not assigned before; it keeps the trail and the models consistent with each other, and every valuation that agrees with the assigned rational variables and satisfies the constraints on the trail satisfies the added ones.",
  "all histories of the plugin, all options, all hash functions, all valuations",
  "no logic enables the option, so no test runs the function",
  ["src/lra/Linear_arithmetic.cpp:299-326", "src/lra/Linear_arithmetic.h:108-122"])

p("No assertion of the term table and the term manager fails",
  "Constructing the term table and every operation of the term manager on well-typed arguments run without a failed assertion, an index out of range, a null descriptor, a descriptor cast to a class of another kind of term, or a term entered twice into the hash set. The only exceptions are the documented restrictions of mk_arithmetic_times and mk_divides, and equalities (also inside distinct) between two different real terms that denote the same polynomial.",
  "all tables that the term manager can build, all operations with well-typed arguments, all hash functions including ones that always collide",
  "assertions are only checked for the terms that a test builds, and the casts are unchecked in every build",
  ["src/terms/Term_hash_table.cpp:9-113", "src/terms/Terms.cpp:100-194", "src/terms/Terms.cpp:237-294", "src/terms/Term_manager.cpp:238-760"])

p("Operations on polynomials compute the right coefficients inside their storage",
  "Polynomial::merge adds a multiple of another polynomial: every coefficient of the result is right, the result is again sorted without zero coefficients, no element of the temporary storage is accessed outside of its size whatever it contained before, and the hooks for added and removed variables are called exactly once for each variable that appears or disappears. add_term, get_coeff, remove_var, negate, multiply_by and divide_by compute the right coefficients and keep the normal form for factors other than 0; their assertions fail exactly for a variable that does (add_term) or does not (get_coeff, remove_var) occur.",
  "all normal polynomials, all factors other than 0, all previous contents of the temporary storage, all variables",
  "the temporary storage is shared between calls, so that a stale element or a wrong size shows only for particular sequences of sizes",
  ["src/terms/Arithmetic_polynomial.h:71-83", "src/terms/Arithmetic_polynomial.h:87-180", "src/terms/Arithmetic_polynomial.h:182-229"])

p("The traversal visits every subterm once and after its arguments",
  "Visitor::visit for a list of roots calls the configuration exactly once for every subterm of the roots that was not processed before, always after the calls for the arguments of the term, and its assertion never fails; afterwards the processed terms are the old ones and all subterms of the roots. So the conversion of assertions to clauses and constraints is the composition of Internalizer_config::visit over the subterms in this order, also when check-sat is called again.",
  "all tables that the term manager can build, all lists of roots, all sets of processed terms that contain the arguments of their terms",
  "the number of terms and the shapes of shared subterms are unbounded; a term that is visited twice or too early is only noticed for particular sharing",
  ["src/terms/Term_visitor.h:13-68", "src/parser/Solver_wrapper.cpp:33", "src/parser/Solver_wrapper.cpp:168-342"])

p("Subsumption stays inside its memory and its assertions hold",
  "Subsumption::minimize and Subsumption::on_restart never access a vector outside its bounds, never use an iterator outside the learned clauses, and never fail an assertion, and they compute what the model without memory computes; old_size is never larger than the number of learned clauses.",
  "all clauses and trails with well-formed reasons, all histories of resizes, learned clauses, reordered clauses and restarts",
  "an access outside a vector usually goes unnoticed; a stale size only matters for a second check-sat that restarts",
  ["src/Subsumption.cpp:5-158", "src/Subsumption.h:75-98", "src/Literal_map.h:46-110", "src/Yaga.cpp:63-67"])

p("No assertion fails while a conflict is handled",
  "When propagation reports conflicts, no assertion of Conflict_analysis, of Solver::analyze_conflicts, learn and backtrack_with, and of the functions of the trail they call fails; value() is never taken of an empty optional, no vector is accessed outside its bounds, and the comparisons given to std::sort are strict weak orderings.",
  "all well-formed trails and false clauses; all reachable states of the solver for QF_LRA and of the propositional solver, any is_before",
  "assertions are compiled out in release builds, and a comparison that is no strict weak ordering only goes wrong for some inputs of std::sort",
  ["src/Conflict_analysis.cpp:5-66", "src/Conflict_analysis.h:32-58", "src/Solver.cpp:15-148", "src/Solver.cpp:194-215", "src/Trail.h:177-232"])

p("The priority queue stays inside its vectors",
  "Every sequence of calls of push, pop, update and rescale that only pushes absent variables and only pops a non-empty queue runs without an access outside pq or position, without a failed assertion, and ends with the variables and scores of the priority map; every other sequence fails, so the conditions are exactly the preconditions.",
  "all sequences of calls, all variables, scores from any linear order",
  "operator[] outside a vector usually reads stale memory and goes unnoticed; the indices come from parent and child arithmetic and from a position table that is grown on demand",
  ["src/variable_order/Variable_priority_queue.h:19-212", "src/variable_order/Variable_priority_queue.cpp:5-118"])

p("The trail stays inside its vectors",
  "In every legal history of set_model, resize, decide, propagate, set_value, backtrack and clear no assertion of the trail fails, no vector is accessed outside its bounds and no missing model is dereferenced; the queries decision_level, reason, is_defined, value and timestamp of every variable stay inside the vectors and return what the trail holds. Levels above the current one and types without a model fail.",
  "all histories of calls, any number of variables of both types, models added in any order",
  "the row of a type without a model is filled with as many cells as another type has, so that assertions and writes succeed by accident",
  ["src/Trail.h:58-287", "src/Trail.cpp:6-18", "src/Model.h:12-112"])

p("Literal_map is a map from literals",
  "A sequence of writes, assign and resize on a Literal_map stays inside its vector exactly if it only writes literals of variables the map has at that time; afterwards every literal is read with the value last given to it, literals of different variables and a literal and its negation never share a cell, new literals have the default value, and the range of values has the value of each literal once.",
  "all sequences of calls, any number of variables, any value type",
  "a wrong index or a resize by the number of variables instead of literals reads and writes neighbouring cells, which rarely crashes",
  ["src/Literal_map.h:14-111", "src/Literal.h:79-96"])

p("The variable order of the arithmetic solver stays inside its vectors",
  "In every history of the trail and of the events of Generalized_vsids in which the clauses only have variables of the trail, no event accesses a vector of scores, a queue or the trail outside its bounds, takes value() of an empty optional or fails an assertion of the queues, except that pick fails exactly if an effectively decided variable is reported twice or while it is still in its queue; pick returns an unassigned variable of the trail or nothing.",
  "all histories of events, all clauses and constraints over the variables of the trail, scores from any linear order",
  "the private overload of score() does not check bounds and grows with on_variable_resize, so the access depends on the order of the notifications",
  ["src/variable_order/Generalized_vsids.h:82-175", "src/variable_order/Generalized_vsids.cpp:5-127"])

out = os.path.join(os.path.dirname(os.path.abspath(__file__)), "..", "properties.jsonl")
with open(out, "w") as f:
    for q in P: f.write(json.dumps(q) + "\n")
print(len(P))
