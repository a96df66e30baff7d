# Formal model of yaga: design

The source in `/repo` is read as text; nothing there is built or run. The model
is written by hand in Lean 4 (4.33.0, Mathlib) under `/verif/lean/Verif`.

Layout:

* `Verif/Model/*`  - definitions transcribed function by function from the C++
  code. Every definition cites file and lines, and names its simplifications.
* `Verif/Spec/*`   - small specifications that do not use the model's helpers
  (truth of clauses, values of polynomials, Luby sequence, meaning of terms, ...).
* `Verif/Proofs/*` - helper lemmas.
* `Verif/Props/*`  - the theorems of one property per file, with concrete
  non-trivial `example`s that meet their hypotheses and `#print axioms`.
* `tools/*`        - generators of `properties.jsonl` and `MANIFEST.json`.
* `seeded/LOG.jsonl` - wrong programs the theorems were tested against.

## Trusted base

* Lean's kernel, and the axioms `propext`, `Classical.choice`, `Quot.sound`
  (each property file ends with `#print axioms`). No own axioms, no `sorry`, no
  `native_decide`/`bv_decide`.
* The transcription from C++ to Lean, done by reading.
* The statements of the theorems and the files under `Verif/Spec`.
* Contracts of what the code calls and the model does not contain:
  * `vector`/`deque` are lists, `unordered_set`/`unordered_map` finite sets/maps,
    `std::sort` a sorting function, iterators are not invalidated;
  * GMP computes exactly with integers and rationals (C19-C23 model the fast path
    on machine words and the switch to GMP);
  * hash functions are parameters (any function);
  * `istream >> int` skips blanks, reads an optional sign and digits and fails on
    values outside `int`;
  * `Rational` is a rational number everywhere outside C19-C23, which C19 and C20
    justify;
  * floating-point numbers are exact or abstract (C10: any averaging; C11, C12:
    any linear order of scores).
* `int` ordinals, levels and counters are unbounded unless the property is about
  machine arithmetic (C01, C09, C19-C23: words are explicit).
* Pointers to clauses are modelled by the clause contents or by an index.

## Conventions

* Undefined behaviour, failed `assert`, and `exit`/`throw` are a distinct outcome
  (`none`, `ok = false` or an explicit constructor), never a default value; or the
  theorem has an explicit precondition that excludes them.
* Where the code violates a property, the negation is proved with a concrete
  witness (suffix `_false`, `_wrong` or a name that says what happens) and what
  does hold is proved with the suffix `_partial`.

## What is modelled

| source | module |
|--------|--------|
| `Literal.h`, `Variable.h`, `Clause.h`, `Model.h`, `Literal_map.h` | `Literal`, `Trail`, `BoolTheory` |
| `Trail.{h,cpp}` | `Trail`, `TrailHistory` |
| `Conflict_analysis.{h,cpp}` | `Analysis` |
| `Subsumption.{h,cpp}` | `Subsumption` |
| `Database.h`, `Solver.{h,cpp}`, `Yaga.{h,cpp}` | `Check`, `Learn`, `Propositional` |
| `Restart.h` | `Restart` |
| `Event_dispatcher.h`, `Event_listener.h` | `Events` |
| `Theory.{h,cpp}`, `Theory_combination.{h,cpp}` | `Combination` |
| `variable_order/*` | `PQueue`, `VarOrder` |
| `bool/Bool_theory.{h,cpp}` | `BoolTheory`, `BoolHistory` |
| `lra/Long_fraction.{h,cpp}` | `LongFraction`, `FractionInt`, `FractionExpr` |
| `lra/Fraction.h` with `int` | `IntFraction` |
| `lra/Linear_constraint.h`, `lra/Linear_constraints.h` | `LinearConstraint` |
| `utils/Linear_polynomial.{h,cpp}` | `LinearPolynomial` |
| `lra/Bounds.{h,cpp}`, `lra/Variable_bounds.h` | `Bounds` |
| `lra/Lra_conflict_analysis.{h,cpp}` | `Fm`, `LraHistory` |
| `lra/Linear_arithmetic.{h,cpp}` | `LraDecide`, `LraPlugin`, `LraPluginHistory` |
| `uf/Uninterpreted_functions.{h,cpp}` | `Uf`, `UfHistory`, `UfLra` |
| `terms/Terms.{h,cpp}`, `Term_types.h`, `Term_hash_table.{h,cpp}` | `Terms`, `TermHistory` |
| `terms/Term_manager.{h,cpp}`, `Arithmetic_polynomial.h` | `TermManager`, `ArithPoly` |
| `terms/Term_rewriter.h`, `Term_visitor.h` | `Rewriter` |
| `parser/Parser_context.{h,cpp}` (`let`, literals) | `Decimal`, `Let` |
| `parser/Smt2_term_parser.{h,cpp}` | `TermParser` |
| `parser/Solver_wrapper.{h,cpp}` | `Internalizer`, `Script` |
| `sat_solver.cpp` (DIMACS reader, answer and exit code) | `Dimacs`, `SatMain` |
| `Smt2_parser.cpp` (`Print_model`, `get-model`), `Solver_wrapper::model`, `Long_fraction::print` | `PrintModel` |
| `smt2_lexer.ll` (rules, matching of flex), `Flex_lexer` (next_token, token_string) | `Model/Lexer.lean` |
| `Parser_context.cpp` (names, `resolve_term`, `define-fun`), `Term_manager::mk_term` by name, `assert`, `declare-*`, `define-fun` of `Smt2_parser` | `Model/Frontend.lean` |
| `Smt2_parser.cpp` (`Smt2_command_context`), sorts and symbols of `Smt2_term_parser.cpp`; the first call of `Solver_wrapper::check` | `Model/Commands.lean`, `Model/FirstCheck.lean`, `Model/Response.lean` |

Not modelled: printing of statistics, the scanner that flex generates (its matching rule is modelled), what the command loop does after an error inside a term, command-line
options (`smt_solver.cpp`, `Options.h`), `utils/Utils.cpp`,
memory management, and running time.

## Plan per property

| id  | model | proof |
|-----|-------|-------|
| C01 | `Literal` as non-zero integer, as in the code | algebra on integers |
| C02 | `eval` loops over a partial model `Nat -> Option Bool` | induction on the clause |
| C03 | `Trail` (levels, per-variable level and reason) and its operations | invariant by induction over histories |
| C04 | `Trail.backtrack` | invariant of C03 + simulation of runs above the level |
| C05 | conflict-analysis loop over the assigned list | loop invariant: entailment |
| C06 | same | loop invariant: falsity, level counts; sorting lemma |
| C07 | `minimize` | well-founded induction on trail position |
| C08 | `Subsumption` (occurrence lists, signatures, removal) | invariant over removals |
| C09 | `luby` on 32-bit words, countdown | refinement to the recursive definition; wrap-around documented |
| C10 | counters and LBD; averages are floats, abstracted as an arbitrary predicate | decision logic |
| C11 | 4-ary heap on arrays with position map | heap invariant, refinement to a map |
| C12 | `pick` loops | induction |
| C13, C14 | watch lists, `propagate`, `falsified`, `initialize`, `on_learned_clause` | watch invariant by induction over steps |
| C15, C16 | `check` as a transition system, branching/phase/restart as arbitrary choices | invariants of all runs |
| C17 | `learn` on lists of clauses | list lemmas |
| C18 | `check` twice | negation by witness; partial theorem for the first check |
| C19, C20 | words as bounded integers with explicit overflow outcome, GMP as rationals | arithmetic case analysis |
| C21 | constructor on 32-bit words | negation by witness + partial |
| C22, C23 | rounding, `inv`, `%` | arithmetic; negation by witness for `inv` and `%` |
| C24-C26 | `Linear_constraints` repository | normalisation lemmas, refinement |
| C27 | `Linear_polynomial` vectors | induction |
| C28-C30 | Fourier-Motzkin on derived-bound trees | structural induction over trees |
| C31, C32, C34 | `Bounds`, `Variable_bounds` with time stamps | invariants over histories; negation for equality predicates in `is_implied` |
| C33 | `find_integer`, `decide` | termination measure + correctness |
| C35, C36 | function plugin | validity of clauses; negation for Boolean arguments |
| C37 | term table as list of descriptors + intern map | invariant over histories |
| C38-C40 | term manager over the term table with denotational semantics | semantics preserved; negation for canonicity |
| C41 | digit strings | arithmetic |
| C42 | rewriter loop | negation by witness; partial |
| C43 | `Let_records` | induction over nested scopes |
| C44 | internaliser | induction over the visit order |
| C45 | two `check` calls of the wrapper | negation by witness; partial for the first |
| C46 | DIMACS reader over tokens/lines | induction over input |
| C47 | `check` parametrised by an arbitrary theory plugin obeying the contract | invariant of all runs |
| C48 | propagate loop over abstract plugins | induction on rounds |
| C49 | `Bool_theory::decide`, phase cache | invariant over histories |
| C50 | listener list | induction over histories |
| C51 | `propagate` of the Boolean plugin with fuel | measure: fuel above a bound is never used up |
| C52 | `check` loop of the propositional configuration | invariants of C03, C06, C14 discharge the preconditions of each step |
| C53 | parser loop with its two stacks over tokens | induction over syntax trees |
| C54 | `check` with the function plugin, script level | C36 and C44 combined; negation for Boolean arguments |
| C55 | arithmetic plugin: watch lists, `replace_watch`, all entry points | invariant over histories of the solver loop |
| C56 | same | same invariant: values, returned clauses from C29, C30 |
| C57 | same | same invariant: completeness of bounds per decision level; witness for late literals |
| C58 | `check` for QF_LRA: both plugins, combination, analysis, `backtrack_with`, `restart` | invariant: the arithmetic plugin is in a state of its histories, clauses follow from the asserted ones and the theory; C56 makes conflicts valid |
| C59 | as C58 | invariant: propagation of the Boolean plugin is complete (C14 with semantic splits), watched false literals are not listed above their level; C56 gives the constraints their values |
| C60 | as C58 | shape of analysed clauses (C06 with reasons tight); invariant: a Boolean variable without a reason is the decision of its level or has the level of a rational variable |
| C61 | C44 and C58-C60 together: `Internalizer.check`, then `Qf.first` | the plugin mirrors the store of the conversion (invariant over the traversal of terms); then C44 and C58/C59 |
| C62 | model of C55-C60 | invariant: at every level the bounds that are not obsolete at that level permit a value for every variable; new bounds are noted and checked by `finish`. Then C33 gives the value, C51 and a measure give the end of propagation, C60 handles conflicts |
| C63 | `Generalized_vsids` as the order of the model of C58-C62 | invariant: every variable is in the queue, or assigned, or at level 0 and derived again by unit propagation from the clauses a restart keeps; then C58, C59, C62 |
| C64 | `Fraction<int>` with 32- and 64-bit machine arithmetic, undefined behaviour and failed assertions as no result | the operators and the rational numbers agree; uniqueness of lowest terms; induction over computations |
| C65 | the loop of C15, C16, C52 with the Boolean plugin and all restart policies | propagation is complete at all levels below the current one (invariant); so a learned clause is not subsumed by the database; measure: number of subsumed sets of literals, then number of unassigned variables |
| C66 | `check` for QF_UFLRA: the model of C58 and the function plugin, which shares the trail and the constraints | the invariants of C58/C59 and of C54 together; the plugin's calls of `linear_constraint` and `propagate` are steps of the histories of the arithmetic plugin (`LA.derive`), if its literals are assigned at the level of their constraint |
| C67 | the loop of C66 | as C60 and C62: every conflict of the three plugins is false with reasons on lower levels or earlier; a literal without reason belongs to a decision or to a level of a rational variable; the list of the last level grows in every round of propagation; the function plugin's `propagate` is total on states that satisfy its invariant |
| C68 | Generalized_vsids (model of C63) on the loop of C66 | as C63: the invariant of the order is stated for the trail shared by the plugins (`OHead`, `OProp` in Proofs/QfOrder.lean) and shown to survive propagation of the function plugin, restarts and backtracking |
| C69 | `get-model` as characters (`PrintModel`); reader of SMT-LIB text, definitions and their values (`Spec/SmtText`, `Spec/SmtModel`) | a text shows expressions if the reader finds them whatever follows (`Shows`); by induction over the printed parts the text shows the definitions; a definition gives the first matching entry of the table (`pickEntry`), which is the table of the plugin because keys occur once; then C61/C66 for any interpretation with these values |
| C70 | `smt2_lexer.ll` as rules with the matching of flex by derivatives (`Lexer.tokens`); words of patterns, rule of flex, lexicon and layouts (`Spec/Lexicon`) | derivatives and longest matches are right by induction over the text; for each lexeme the rules that can match longer or earlier are excluded by the first character or by the run of characters; gaps by induction; the sequence of tokens by induction over the layout |
| C71 | `Parser_context` with its tables of names (`Names`), `mk_term` by operator name, the commands for declarations, definitions and assertions (`FE`); sorts and values of SMT-LIB terms and scripts (`Spec/SmtLib`) | every theory symbol by the theorems about the term manager (C38, C39); mutual induction over terms, arguments and bindings; invariant over the commands relating names and signature; structures and interpretations are constructed from each other |
| C72 | the command loop `Smt2_command_context` from characters to printed lines (`Shell`, `Model/Commands`), the first call of `Solver_wrapper::check` (`LraCheck`, `UflCheck`, `Model/FirstCheck`); commands and how they are written (`Spec/Commands`) | induction over the commands, with the states of C71 up to the representation of let bindings; composition of C70 (lexer), C71 (terms), C44 and C61/C63 (QF_LRA) or C68 (QF_UFLRA); scripts in QF_LRA make no applications (`Proofs/NoApp`) |
| C73 | the front end of C71 and the command loop of C72 on a syntactic fragment of linear scripts (`Spec/Linearity`) | mutual induction over syntax trees: a term of the fragment can be made and has the form computed from its syntax (a constant with its value, not a product, not a product with the coefficient 1), using the totality theorems C38 and C39 and the canonical polynomials of C40; composed with C72 |
| C74 | the shell of C72, the front end, the conversion and the check loop together, on the fragment of C73; for QF_UFLRA with real functions and plain arguments (`Spec/Linearity`) | invariant over scripts: applications of the table are real and have real arguments that are no sums or products, terms of the manager add no other applications; hence the hypotheses of C44_total, C63_never_stuck and C68_never_stuck_partial hold; composed with C73 |
| C75 | the shell of C72 with `get-model` (`modelCase`), `get_term_name` (`Names.termName`), what can be printed after the first `sat` (`Model/Response`); what definitions say about a structure for the symbols of a script (`Spec/ScriptModel`) | invariant over scripts: every constant and function of the table has its declared name, every application has declared argument sorts (`Proofs/ScriptNames`); hence the assumptions of C69 about names hold; structures that agree with the definitions and interpretations that meet them correspond (`Proofs/ScriptModel`); composed with C69, C71 and C72 |
| C76 | integer operations of `Long_fraction` on words with explicit undefined behaviour and on GMP integers | Euclid on signed remainders; floor from truncated division; negation by witness + partial |
| C77 | loop of `get_multiplicand` with fuel | `k` divides `j` iff every denominator divides `j`, by induction on the fuel; the denominator of `m/d` divides `i` iff `d` divides `m*i` |
| C78 | `main` of the program `sat` and `is_satisfying`, over the reader and the loop of `check` | the reader yields non-empty clauses over declared variables for any text (invariant of its two loops); then C46, C65 and the invariant that asserted clauses are only permuted |
| C79 | `propagate` of the Boolean plugin with every pointer, index and assertion checked (`Model/BoolChecked`), on top of the check loops | the checked loops equal the unchecked ones: same invariants as C03-C05 (watch lists, waiting literals), and the reason of every waiting literal has only false other literals |
| C80 | `main` of the smt program (`Model/SmtMain`): the loop over the words, options of the plugins, output with counters, exit code; the script is run by the model of C63-C77 | induction on the words; the answers come from C72, C74, C77 |
| C81 | no new model: the check loops of QF_LRA and QF_UFLRA (`Model/QfLra`, `Model/UfLra`) | a number with one digit per level (how many variables are assigned at it, and whether it starts with a Boolean variable) grows with every iteration that is not a restart |
| C82 | the calls that put a solver together and the events it raises (`Model/Wiring`): listeners, `Theory_combination`, `Combined_order`, numbers of variables, counters. Objects have numbers instead of addresses | invariant over all histories: the list of listeners and the numbers known to the combination are those of the specification, which is read off the calls |
| C83 | the functions on the way from `propagate` to a conflict clause and `decide` once more with their assertions, divisions and dereferenced iterators as failures (`Model/FmChecked`); the assertions of `Bounds::update` are in `LA.unitOk` (`Model/LraPlugin`) | from the invariants behind C28-C34 and C55-C57: the checked functions return the result of the unchecked ones |
| C84 | `check_bounds_consistency` and `check_watch_consistency` as Boolean functions of the plugin state (`Model/LraChecks`) | the invariant behind C57 says that every unit constraint on the trail has its bound; hence the recomputed table never holds a tighter bound |
| C85 | `propagate_unassigned` and `occur` on the state of the plugin (`Model/LraUnassigned`), called where `propagate` calls it | invariant through both loops, with C34 for the literals that are set; partial: a reachable state in which an equality is set that is not implied |
| C86 | the term table and the term manager a second time, with every assertion, table access and cast of a descriptor as a possible failure (`Model/TermChecked`) | equality with the functions of C37-C39 by the invariant on shapes of entries; failures characterized with C39, C40 |
| C87 | `Polynomial<term_t>` with its temporary storage, the write index, the hooks and the moves back to the vector (`Model/PolyMemory`) | induction over the merge loop: what was written so far is the result so far; coefficients by `Spec/Polynomial` |
| C88 | `Visitor` with its explicit worklist for any configuration (`Model/Visitor`) | induction over the indices of terms: the loop on a worklist with a term on top does the same as removing the term and recording its unprocessed subterms in order; cost bound by the sizes of argument lists |
| C89 | `Subsumption` with the vectors of `occur` and `lit_bitset`, iterators and assertions (`Model/SubsumptionChecked`) | the bitset is the membership test, the vector of occurrence lists is the function of the unchecked model; positions and literals stay in range through both passes; induction over histories |
| C90 | conflict branch of `check` with assertions, `value()` and vector bounds (`Model/AnalysisChecked`, `Model/BacktrackChecked`); not the events | the checked functions compute what the unchecked ones compute, from the invariant of the trail and of reasons; the assertions of `backtrack_with` from C60 and C52 |
| C91 | the vectors `pq` and `position` of the priority queue with every access (`Model/QueueMemory`) | the vectors encode the queue of C11 (relation `QMem.Sim`), which every operation preserves; failing calls are those outside the precondition |
| C92 | the vectors of `Trail` and `Model` with every access, assertion and pointer (`Model/TrailMemory`); not the notification in `resize` | the vectors encode the trail of C03 (relation `TMem.Sim`), which every call preserves; bounds from the invariant of C03 |
| C93 | the vector of `Literal_map` with every access (`Model/LiteralMap`); not the iterators | the vector encodes a function on literals, by the bijection between indices and literals |
| C94 | the vectors and queues of `Generalized_vsids` with every access (`Model/OrderMemory`); the plugin is a parameter | the vectors encode the heuristic of C12 (relation `GMem.Sim`), which every event preserves; ranges from the invariant of C12 |

## Histories of the arithmetic plugin (C55-C57)

`LA.Reach` describes what the solver does to the plugin between two calls.
Assumptions, each visible as a hypothesis of a constructor:

* the user creates constraints whose variables are not assigned and whose
  coefficients are not all zero (a constraint without variables makes `watch`
  read out of bounds);
* constraints created by a conflict analysis or the function plugin have assigned
  variables, sorted by decreasing level (the code sorts them so);
* other plugins propagate Boolean variables at or below the current level;
* decisions follow a complete propagation without conflict;
* `split` (semantic split): no late literal of a constraint with unassigned
  variables is skipped. The code does not ensure this; see C57_late_split.

## The solver for QF_LRA (C58-C63)

`Qf.Iter` is one iteration of the loop of `check`. Both plugins have a copy of
the trail; `Qf.withTrail` and `Qf.follow` hand it over. Choices of the restart
policy, of the variable order and of the literal of a semantic split are
arbitrary. Assumptions:

* the variable order picks declared variables that are not assigned
  (`Qf.PicksFree`); for C59 also that it stops only when all are assigned
  (`Qf.PicksAll`). C63 proves both for `Generalized_vsids`, the order of the solver;
* there is one `check`, constraints are created before it, clauses are not empty;
* rational numbers are exact (the code uses `Fraction<int>` or `Long_fraction`, see
  C20-C23);
* iterations that do not end have no result (propagation, search for a value);
  C60 and C62 show that every iteration has one. That the loop ends is not proved.

C61 is about the first `check-sat` of a script; assertions are terms, `declare-fun`
and parsing are C43 and C53.

`Model/QfRun.lean` and `Model/QfOrderRun.lean` have executable versions of the loop
for examples.

In C63 (`Model/QfOrder.lean`) scores are elements of any linear order. The events
`on_variable_resize` for derived constraints reach the order before its next method
call. Which clauses are bumped is arbitrary. C12_gvsids_restart_loses_variable is
about the order alone; C63 shows that the lost variables get their values back from
propagation before the order is asked again.

## The solver for QF_UFLRA (C66-C68)

`Ufl.Iter` adds the function plugin to the loop of `Qf.Iter`. `Ufl.view` is the
plugin's view of the shared state, `Ufl.absorb` hands trail, constraints and watch
lists back to the arithmetic plugin; the maps from terms to variables do not change
during a check. `UF.linear` calls the same `linear_constraint` as the conversion and
watches the new constraint as the arithmetic plugin does.

The theorems are partial. Functions have real arguments and values (`RealFns`; C54_false
shows that Boolean arguments give wrong answers), the terms are supported by the
conversion (`Supported`), and every argument is a polynomial in at most one variable
(`OneVar`). Without `OneVar` the assertion at `Linear_arithmetic.cpp:61` can fail
(C66_levels_false); whether answers are still right when assertions are off is not
proved. `Model/UfLraRun.lean` is an executable version for examples.

## Where the code disagrees with the properties

Proved with witnesses:

* C06_needs_tight - conflict analysis needs reasons whose literals are on lower
  levels or earlier; late propagations break this.
* C09_luby_wraps, C09_interval_overflow - the Luby sequence wraps around.
* C12_gvsids_restart_loses_variable - after a restart `Generalized_vsids` never
  picks variables that were assigned at level 0.
* C14_duplicate_literal_not_unit - a clause with a repeated literal is not
  recognised as unit.
* C18_second_check_ignores_clauses - clauses added after a check are ignored.
* C79_watches_dangle - the clauses are removed before the next check but watches to them remain (dangling pointers).
* C80_phase_ignored - an unknown value of `--phase` is ignored without a message; `--phase a.smt2` swallows the path.
* C80_exit_hides_errors - the smt program exits with 0 when the file does not exist and when the script ends with an exception.
* C82_combined_wrong_event - `Combined_order::on_conflict_resolved` calls `on_learned_clause` of its orders (src/variable_order/Combined_order.h:101). No set-up uses `Combined_order`.
* C82_counters_not_reset - `num_conflict_clauses` and `num_learned_clauses` are documented as those of the last check but `Solver::init` does not reset them.
* Not modelled, found by reading: `Solver::Solver() : Solver(terms::Term_manager())` (src/Solver.cpp:11) keeps a reference to a temporary that is destroyed at the end of the constructor.
* C21, C23 - `Long_fraction(n, d)` with negative numerator, `inv`, `%`.
* C76 - `gcd` and `lcm` of negative words have the wrong sign, and `gcd`, `lcm`, `divexact` of `INT_MIN` and -1 are undefined.
* C24_distinct_variables_needed - constraints with repeated variables are
  compared wrongly.
* C28_signs_needed - `resolve` is unsound for coefficients of equal sign
  (callers do not do this).
* C31_strictness_inexact - `is_strict` looks only one level deep.
* C32_rejected_lost - weaker bounds are not recorded.
* C34 - `is_implied` is wrong for equality predicates.
* C85 - `propagate_unassigned` (never enabled) sets equalities that are not implied.
* C35_false, C36_false, C54_false - functions with Boolean arguments: the sign of
  the argument literal is ignored; a wrong sat answer follows.
* C40_false - equal polynomials may be different terms.
* C42_false - `Term_rewriter.h:44` tests the wrong way round.
* C42_rebuild_app_false - rewriting an application drops its function symbol.
* C44_unsupported - `(not (p x))` for a Boolean application is not converted.
* C45_false - a wrong sat answer at the second `check-sat`.
* C46_false - DIMACS numbers outside `int` silently drop the rest of the line.
* C49_restart_loses_level_zero - phases of level-0 variables are not saved at a
  restart.
* C63_push_assertion - with `--prop-rational` (off by default) an effectively decided
  variable can be pushed into a queue that contains it; the assertion of
  `Variable_priority_queue::push` fails.
* C57_late_split - a literal that is propagated late can be lost at a semantic
  split; an assertion about the value of its constraint fails afterwards.
* C66_levels_false - `assert_equality` propagates at the level of the compared terms
  although variables may cancel in their difference; after backtracking the literal of
  the constraint is lost while its variables are assigned, and a learned clause can
  give it the wrong value. An assertion of the arithmetic plugin fails.
* C64_sub_false, C64_div_false - `Fraction` subtracts and divides by negating and
  inverting first, which is undefined for `INT_MIN` although the result may fit
  (also for integers as second operand, C64_mixed_partial).
* C64_zero_division - `Fraction` does not check division by 0: `1 / (1 / 0)` is 0.
* C64_toInt_not_floor - conversion to an integer rounds towards zero, the comment
  says down.
* C69_quoted - quoted symbols are printed without their bars, the response cannot
  be read.
* C70_define_const - the lexer treats `define-const` as a reserved word, in SMT-LIB 2.6 it is a symbol;
  C70_other_reserved - reserved words that the solver does not know, such as `forall`, come as symbols.
* C71_shadowed_true - `(let ((true false)) true)` is read as true.
* C71_parameters - two contradicting assertions about a function defined with a parameter are read as
  terms that have a model (the parameter is not replaced, C42).
* C72 - the pointers `lra` and `uf` of `Yaga` (src/Yaga.h:219, 222) have no value before `set-logic`: a
  `declare-fun` with arguments or a `check-sat` before `set-logic` reads them. The model ends there (`throw`).
* C72 - an error inside the term of an assertion prints an error line and the script goes on without the
  assertion, so a later `sat` need not be true of the script; the theorems are about the first line.
* C73 - `(assert (= x (* 0.5 (* 2 x))))` is rejected (`C73_multiple_of_multiple`): the product of two constants
  and a variable is stored as `1 * x`, which is another term than `x`, and the difference of the two sides has no
  monomials: an assertion of `mk_arithmetic_eq` fails (src/terms/Term_manager.cpp:429), and in a release build
  line 451 reads the first monomial of an empty polynomial.
* C71_rejected - `(= a b c)`, `(< a b c)`, `(- a b c)`, `(=> a b c)`, `(* 2 3 x)` are not accepted.
* C89_stale_size - `Yaga::init` removes the learned clauses and leaves `Subsumption::old_size` as it is: the
  first restart of the next `check-sat` forms an iterator behind the end of the learned clauses (undefined), or,
  with enough new clauses, keeps a subsumed one (C89_stale_size_keeps_subsumed).

Noticed while reading, not modelled: n-ary `=` is not implemented; n-ary
`*` drops factors when asserts are off.

## Tests against wrong programs

`seeded/LOG.jsonl` lists edits of the model as a realistic bug would make them,
with the theorems that failed. The edits are made in a scratch copy. Edits that
no theorem rejects are either harmless for the claim (the entry says why) or led
to a stronger theorem.
