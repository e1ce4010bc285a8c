# DESIGN — a Lean 4 model of wsp-sag/cheval

## 1. Approach

Shallow, function-by-function model of the Python/Numba code as total Lean functions; exceptions are values
(`Except Err α`, paired with the *mutated* state where Python mutates before raising). Stateful parts are state machines
(`step : State → Op → State × Outcome`), parallel loops are relations between a start state and every possible outcome.

Layout of `/verif/lean/Verif/` (namespace `Cheval`):

* `Num/`    the numeric interface `FOps` (the operations core.py uses), its order laws `FLaws`, and its carriers: `XR` (exact
            extended reals with nan, ±inf, IEEE rules, no rounding), `Rnd R` (any monotone rounding), `Binary64` (IEEE round to
            nearest even, an instance of the former); Lean's `Float` only runs the model as a test (`FloatTest`).
* `Core/`   the model, and helper lemmas about it. Model files: `Err`, `Dict`, `Sampling`, `Logit`, `Parallel` (core.py);
            `Tree`, `Results`, `RunCalls`, `PartialCall` (model.py); `Expr`, `ExprGroup` (parsing/, api.py); `Model` (api.py symbols,
            model.py scope/evaluation/preval/copies), `ModelHistory` (all calls on one model), `Heap` (many models and copies sharing
            objects); `Ldf`, `LdfEval`, `LdfTable` (ldf/). The others (`*Lemmas`, `Ldf*`, `Rows`, `Reads`, ...) hold proofs only.
* `Spec/`   small independent specifications: no indexers, caches, heaps or parser states in them.
* `Props/`  the property theorems `C01_…`, each with a concrete case beside it that meets its hypotheses.

Numeric statements come in two strengths: theorems over any `F` satisfying the order laws `FLaws` (satisfied by exact and by
every monotonically rounded arithmetic, in particular binary64), and theorems over exact reals (sums to 1, equals the textbook
formula) which no floating point program satisfies literally.

Where the code violates a property, the violation is proved about the faithful model as a theorem with suffix `_refuted`, in
general form where there is one, and the part that does hold is proved as `…_partial`. The English statement in properties.jsonl
is the one a user would rely on, followed by a remark on the violation.

## 2. Properties

| id | property | modelled by | proof method | status and what is missing | theorems |
|----|----|----|----|----|----|
| C01 | A single draw selects the choice whose cumulative-probability interval contains it | sampleOnce (Core/Sampling) | induction on the row, for every FLaws carrier | proved. Every carrier with the order laws FLaws (exact reals, every monotone rounding, IEEE binary64); exact reals also as inequalities on real sums. | `C01_single_draw` `C01_small_draw` `C01_single_draw_exact` |
| C02 | Multi-draw (binary search) sampling agrees with single-draw sampling | logSearch, cumsum, sampleMulti (Core/Sampling) | loop invariant of the binary search | proved. Binary search invariant; every carrier with FLaws. The random stream is a parameter. | `C02_search_eq_scan` `C02_zero_draw` `C02_multi_draw` `C02_out_length` `C02_weights` |
| C03 | A choice with zero probability is never sampled | same | corollary of C01/C02; refutation by a concrete row in binary64 (Num/Binary64) | partial. Proved when the draw does not exceed the computed total; refuted beyond it by a concrete binary64 row. The full claim is false of the code; C03_iff gives the exact condition. | `C03_iff` `C03_positive_partial` `C03_zero_probability_refuted` |
| C04 | Sampling frequencies equal the probabilities | sampleOnce over the reals | C01 + Lebesgue measure of an interval | proved. Lebesgue measure of the set of draws; exact arithmetic. | `C04_frequency` `C04_weights` `C04_zero_weights` |
| C05 | Multinomial probabilities form a distribution equal to exp(u_i)/sum exp(u_j) | multinomial (Core/Logit) over XR; C05_run over RunStochastic | fold lemmas, real analysis | proved. Exact arithmetic (XR). C05_run states it about run_stochastic of a model built with the API, by label. | `C05_run` `C05_formula` `C05_distribution` |
| C06 | Infeasible multinomial rows are reported, or yield zeros when the check is disabled | same; C06_run, C06_run_discrete over RunStochastic, RunDiscrete | fold lemmas | proved. C06_run, C06_returned and C06_run_discrete state it about run_stochastic and run_discrete of a model built with the API. | `C06_run` `C06_returned` `C06_run_discrete` `C06_check` `C06_nocheck` `C06_flag` |
| C07 | Multinomial probabilities obey the logit laws | same; C07_run_* over two RunStochastic calls | real analysis on the closed form of C05 | proved. Exact arithmetic. C07_run_translation, C07_run_odds and C07_run_monotone relate two run_stochastic calls; independence of the order of the choices at that level is C80_order. | `C07_run_translation` `C07_run_odds` `C07_run_monotone` `C07_translation` `C07_odds` `C07_monotone` `C07_permutation` |
| C08 | Nested logit probabilities are zero on nests and sum to 1 over elemental choices | nested (Core/Logit: level-by-level array sweeps) | sweep invariants by level, telescoping sums | proved. Every well-formed forest of any depth and width; exact arithmetic. C16 shows that models built with the API give such forests. | `C08_distribution` |
| C09 | Nested logit probabilities equal the textbook recursion | same | closed form of the sweeps against the textbook recursion (Spec/Logit) | proved. Against Spec.Tree.IsNestedLogit, a recursion-free characterisation proved to have exactly one solution. | `C09_spec_unique` `C09_textbook` |
| C10 | Unavailable nests are switched off and infeasibility is detected exactly | same; C10_run* over RunStochastic, RunDiscrete | corollaries of the closed form | proved. C10_run, C10_run_discrete and C10_run_independent state it about run_stochastic and run_discrete of a model built with the API. | `C10_run` `C10_run_independent` `C10_run_discrete` `C10_infeasible_iff` `C10_nocheck_zero` `C10_zero_iff` `C10_independent` |
| C11 | A nested model with unit scales and zero nest utilities is a multinomial model | same; C11_run over RunStochastic | induction over levels | proved. C11_run states it about run_stochastic of a model built with the API. | `C11_run` `C11_collapse` |
| C12 | Results do not depend on the number of threads or the schedule | workers as sets of atomic operations, arbitrary interleavings (Core/Parallel) | disjoint writes commute, induction over interleavings | proved. Every interleaving of atomic memory operations of the iterations; exceptions of iterations included. worker_weighted_sample (not used by the model) draws inside its parallel region, so only draws made by the calling thread follow the seed: C12_weighted_unseeded; with three or more draws it raises (C12_weighted_sample). | `C12_multinomial_probabilities` `C12_nested_probabilities` `C12_multinomial_sample` `C12_nested_sample` `C12_deterministic` `C12_completes` `C12_weighted_sample` `C12_weighted_streams` `C12_weighted_one_thread` `C12_weighted_unseeded` `C12_run_stochastic_total` |
| C13 | Adding a partial utility table adds each cell exactly once at its labelled position, under every schedule | FastIndexedAdd (Core/Parallel), whole call on a model (Core/PartialCall) | read-modify-write steps under every interleaving; explicit racy schedule | proved. All parts of the statement: the addition under every schedule, the rejection, the exact effect in the state of a model, and the lost update for repeated labels (the theorem named _refuted, which is the last sentence of the statement). | `C13_model` `C13_model_rejected` `C13_run` `C13_total` `C13_added_once` `C13_rejected` `C13_duplicate_labels_refuted` |
| C14 | Probabilities stay within [0,1] in rounded arithmetic | multinomial/nested over FLaws | order laws only; binary64 instance | proved. Any monotone rounding; binary64 is an instance (Num/Binary64). | `C14_multinomial` `C14_nested` `C14_cumsum_monotone` |
| C15 | Choice identifiers are unique and ordered by insertion | heap of nodes and ordered dict (Core/Tree) | refinement to a flat list of records (Spec/ChoiceTree), induction over histories | proved. Histories of any length; strings are lists of characters, the join of names is proved injective. | `C15_choices` `C15_insertion_order` `C15_results` `C15_successful` `C15_any_history` |
| C16 | The choice tree stays consistent and flattens faithfully | flatten (Core/Tree) | same refinement, composed with C08/C09 | proved.  | `C16_history` `C16_probabilities` `C16_flatten` `C16_flat_model` |
| C17 | Re-adding a choice name replaces the choice | createNode (Core/Tree) | observational equivalence; general refutation for every replaced nest (heap invariant, labels from the heap) | partial. Holds for choices in which nothing is nested; for every replaced nest the code violates it (C17_nested_refuted: no nested choice disappears and the nest is listed as elemental; C17_orphans_refuted is a concrete case). | `C17_nested_refuted` `C17_visible_state` `C17_replaces_partial` `C17_orphans_refuted` |
| C18 | A rejected add_choice leaves the model unchanged | createNode (Core/Tree) | case analysis from any state; concrete refutations | partial. Holds when the name is not in use; violated otherwise (two ways). C18_iff: exactly when; C18_lost: exactly what is lost. | `C18_iff` `C18_lost` `C18_rejected_partial` `C18_only_illegal` `C18_rejected_refuted` `C18_dotted_refuted` |
| C19 | A validated tree has at least two top choices and no single-child nest, and a validated model can be flattened | validateTree (Core/Tree) | same refinement | proved.  | `C19_validate` |
| C20 | Results are labelled with elemental choices only | Core/Results, Core/RunCalls | composition of C01, C05, C09, C12, C16, C35 | proved. Whole calls, every schedule; exact arithmetic. | `C20_stochastic_nested` `C20_discrete_nested` `C20_stochastic_flat` `C20_discrete_flat` `C20_run_stochastic_nested` `C20_run_discrete_nested` `C20_run_stochastic_flat` `C20_run_discrete_flat` |
| C21 | Expression rewriting preserves meaning | visit (Core/Expr) | structural induction: rewritten tree against den/ne (Spec/Expr) | proved. C21_rewriting is the stated property; C21_minus: symbols under unary minus that another expression of the model uses. The _refuted theorems show what happens outside it: unary minus on names, None, strings on Python >= 3.8. | `C21_rewriting` `C21_minus` `C21_none_refuted` `C21_minus_refuted` `C21_string_refuted` `C21_nan_names` |
| C22 | Every symbol an accepted expression needs is checked before evaluation | visit, groups of expressions (Core/ExprGroup) | induction on expressions and on histories | partial. Proved for every history except symbols standing only below a unary minus or in keyword arguments; there it is violated (C22_minus_refuted). C22_exact, C22_exact_reachable: with no hypothesis, exactly the unchecked names. | `C22_recorded_partial` `C22_minus_refuted` `C22_reachable_partial` `C22_exact` `C22_exact_reachable` |
| C23 | A name is used either as a simple symbol or as a table, never both | ExprGroup | invariant over histories | proved. Every history of appends, drops and clears. The _refuted theorems go beyond the statement: copies and sums of groups lose the check. | `C23_disjoint` `C23_rejected` `C23_copy_refuted` `C23_plus_refuted` |
| C24 | A rejected expression leaves the model unchanged | ExprGroup.append | induction on expressions: a prefix of the mentions in reading order is recorded; concrete refutation | partial. Expressions unchanged: proved. Required symbols unchanged: violated; C24_left_behind says exactly what stays behind: the variables of a beginning of the rejected expression in reading order (C24_left_operand: those of an accepted left operand always do); C24_unchanged says when nothing does. | `C24_rejected_partial` `C24_syntax_error` `C24_symbols_refuted` `C24_left_behind` `C24_left_operand` `C24_leftovers` `C24_unchanged` |
| C25 | Unsupported syntax is rejected | visit | acceptance iff Spec/ExprSupported, by induction on expressions | proved. C25_exact and C25_append_exact characterise acceptance exactly (grammar in Spec/ExprSupported). C25_minus_refuted shows the positions the statement excludes. | `C25_rejected` `C25_minus_refuted` `C25_exact` `C25_append_exact` |
| C26 | Different table lookups in one expression never share data | visit (names of substitutions) | invariant of the parser state; concrete refutation | partial. Proved when no table name is another one followed by digits; violated otherwise. C26_iff: exactly when. | `C26_iff` `C26_distinct_partial` `C26_same_table` `C26_collision_refuted` |
| C27 | A choice filter confines an expression to one choice | splitFilter, columnMask, kernelEval | list lemmas | proved.  | `C27_split` `C27_confined` `C27_unknown` |
| C28 | Dict literals put each value on the addressed choices only | insertDictVal, dictRow, visitDict | fold lemmas; concrete refutations | partial. C28_row is the exact meaning; the documented meaning holds unless an entry for A precedes A._ (C28_dict_partial) and is violated then; values are rounded to single precision. | `C28_row` `C28_dict_partial` `C28_unknown` `C28_reset_refuted` `C28_rounded_refuted` `C28_written` |
| C29 | Dict literals are accepted in utility expressions and rejected elsewhere | visitDict | case analysis; refutation for every literal | partial. Accepted in models: proved. Rejected in LinkedDataFrame.evaluate: violated. | `C29_accepted` `C29_modes_refuted` |
| C30 | validate() guarantees that evaluation finds every recorded symbol | CModel.validate, evaluate | reads of evaluation are recorded names; induction over histories | partial. Proved for every history except dotted reserved words (OUT.a), where it is violated. | `C30_reachable` `C30_reserved_refuted` `C30_validate` `C30_sound` |
| C31 | Reserved words cannot be redefined | CModel.declare | invariant over histories | proved. C31_words lists the reserved words and the prefixes literally. | `C31_declare` `C31_words` `C31_history` `C31_seen` |
| C32 | Assigned data is aligned by label | CModel.assign and Sym (Core/Model) | case analysis with list lemmas | proved. One assignment (C32_fits) and every history of calls that leave the choices alone (C32_history: new decision units discard the data, copies and subsets keep the size; when the choices change see C55). | `C32_rejected` `C32_only` `C32_series` `C32_array` `C32_table` `C32_number` `C32_fits` `C32_history` |
| C33 | A matrix symbol is expanded by label with the fill value | axisSource, matrix assignment | list lemmas | proved. C33_accept and C33_value state exactly when data are accepted and what is stored, including the two deviations the statement names (shown concretely by the _refuted theorems). | `C33_accept` `C33_value` `C33_both_refuted` `C33_fill_refuted` |
| C34 | Changing the decision units discards unit-dependent data | CModel.setUnits; all calls of a history (ModelOp) | direct; run_sound from the kept table (C34_stale); invariant over histories (C34_stuck); concrete refutations | partial. Symbols: proved (C34_units_partial, C34_not_ready). Utilities start from zero: violated; what happens instead is proved for every history: C34_stale (same number of units: the next run adds to the old utilities) and C34_stuck (another number: no run succeeds until the table is dropped). | `C34_units_partial` `C34_not_ready` `C34_refuted` `C34_stale` `C34_stuck` `C34_doubled_refuted` |
| C35 | Utilities are the sum of the expressions | CModel.evaluate, runUtilities | refinement to Spec/Utilities: loop invariant over expressions | proved. Against Spec/Utilities, for an arbitrary arithmetic; order independence for order-free addition. Which expressions are summed after any history of calls, copies included: C35_history with C35_in_force; one call of append: C35_append. | `C35_append` `C35_in_force` `C35_history` `C35_sum` `C35_texts` `C35_order` `C35_total_is_sum` `C35_exact_order_free` |
| C36 | Running a model twice gives the same result | runUtilities | C35 twice | partial. Violated in general (C36_doubled: exactly twice the utilities). | `C36_add_choice` `C36_second_run` `C36_doubled` `C36_refuted` |
| C37 | NaN utilities are always reported | runUtilities | C35; invariant "the cached table has a NaN" over histories | partial. NaN detection: proved both ways. 'A failed run leaves the model usable': violated (C37_stuck, C37_refuted). | `C37_success` `C37_error` `C37_iff` `C37_stuck` `C37_refuted` |
| C38 | Pre-evaluating a group does not change the result | CModel.preval | C35 on both sides, permutation of expressions | proved.  | `C38_preval` `C38_uncopied` `C38_unknown_group` |
| C39 | preval's scope clean-up keeps the symbols other expressions need | toClear, delNames | set reasoning; concrete refutation | partial. Holds on models that were not copied; violated on copies (two ways). C39_removed_partial says exactly which symbols are removed on a copy, C39_shared_refuted is the violation for every copied model with a variable shared by two groups. | `C39_removed_partial` `C39_shared_refuted` `C39_uncopied_partial` `C39_kept_partial` `C39_refuted` `C39_reserved_refuted` |
| C40 | Copies are isolated | heap of Python objects with many models (Core/Heap) | separation invariant, footprints of every call, refinement to single models | proved. Heap of Python objects with any number of models and copies; the exception named in the statement is C40_shared_nodes. | `C40_isolated` `C40_refines` `C40_copy` `C40_shared_nodes` |
| C41 | copy_subset commutes with evaluation | copySubset, take | evaluation commutes with row selection (Core/Rows) | partial. Utilities and probabilities; C41_calls states it for models prepared by any calls leaving choices and decision units alone, with no condition on data or kept utilities; every history for runs of a group, and for runs of all expressions unless leftover symbols of rejected or dropped expressions exist (violated then: C41_leftover_refuted). C41_linked covers LinkedDataFrames in tables. With stored utilities in another order of the units (C34) the subset goes by label and the run by position (C41_stored, C41_reordered_refuted). | `C41_calls` `C41_linked` `C41_stored` `C41_reordered_refuted` `C41_utilities` `C41_leftover_refuted` `C41_run_stochastic` `C41_group` `C41_accepted` `C41_history_partial` |
| C42 | A link lookup returns the matching row's value, or the fill value | LDF world (Core/Ldf) | invariant LGood over histories; indexers against keys | proved. Every history of safe operations (all except those of C47 and C49 and naming a link like a column). | `C42_lookup` |
| C43 | Chained lookups compose | walk/resolve (Core/Ldf) | induction over chains | proved.  | `C43_chain` `C43_compose` |
| C44 | The aggregation requirement is decided exactly and many-to-many links are rejected without effect | aggFlag, linkTo | case analysis | proved.  | `C44_flag` `C44_many_to_many` `C44_rejected` `C44_accepted` |
| C45 | An aggregated lookup reduces exactly the matching rows | aggregate (Core/Ldf) | groups against keys; concrete refutations | partial. Conditions: link computed, reduction defined on every group, no NaN key in the target; without the last two it is violated (refutations). C45_exact gives the result over one link for every target and reduction, including missing keys and groups without a value (the groups slide); C45_shifted the shift by missing keys. | `C45_chain_partial` `C45_single_partial` `C45_column_partial` `C45_refused` `C45_nan_refuted` `C45_nth_refuted` `C45_exact` `C45_shifted` |
| C46 | Slicing commutes with link lookups | select, grouped | simulation between a frame and its slice (Core/LdfSlice) | partial. Proved for precomputed links, violated for lazily made ones. | `C46_evaluate` `C46_slice` `C46_group` `C46_aggregate` `C46_twice` `C46_lazy_refuted` |
| C47 | Row operations that are not overridden keep links correct | finalized | simulation; concrete refutations | partial. Holds for operations that keep all rows in place on the frame the links were made on; violated otherwise (four ways). C47_effect says exactly what every such operation does instead: lookups go by position in the link's owner. | `C47_effect` `C47_moved` `C47_columns_partial` `C47_moved_refuted` `C47_dropped_refuted` `C47_reindex_refuted` `C47_slice_refuted` |
| C48 | Lazily computed links equal precomputed links | lazy links | simulation between two worlds; general refutation: the missing grouper is an invariant of every history | partial. Plain lookups: proved. Aggregated lookups: violated for every lazily made aggregated link (C48_never_refuted: no aggregation through it ever succeeds until compute_indexers is called or the link is made again). | `C48_lazy_partial` `C48_aggregated_refuted` `C48_never_refuted` |
| C49 | compute_indexers(refresh=True) brings links up to date | computeLinks | invariant; what the refreshed caches give after an earlier lookup, for every history; concrete refutations | partial. Holds before any lookup, on the frame the link was made on (C49_refresh_partial); violated otherwise (three ways). C49_cached_effect says what a refreshed link gives after an earlier lookup, for every history; C49_cached_right for which rows that is right; C49_unrefreshed that without the refresh nothing changes. | `C49_refresh_partial` `C49_cached_refuted` `C49_slice_refuted` `C49_permuted_refuted` `C49_cached_effect` `C49_cached_right` `C49_unrefreshed` |
| C50 | Fill value precedence | setFills, tempFills, fillOf | induction over histories against Spec/LdfFill | partial. Fills of frames over every history: proved. Class-level defaults, derived frames and temporary defaults: violated. | `C50_set_named` `C50_temporary` `C50_history` `C50_lookup` `C50_plain` `C50_class_refuted` `C50_derived_refuted` `C50_temporary_refuted` |
| C51 | Evaluation of a row-wise expression on a LinkedDataFrame reads columns, links and locals as documented | EvEnv.evalWith (Core/LdfEval) | transformer soundness (C21) + lookups (C43, C45) | partial. Unary minus only as in C21 and no clashing names; violated under other unary minuses. | `C51_sound_partial` `C51_evaluate_partial` `C51_names` `C51_reads` `C51_arguments` `C51_minus_refuted` |
| C52 | Aggregations over a table's link can be used in utility expressions | Sym.getChain, EvEnv.tableData (Core/LdfTable) | C35-style evaluation of one expression; refutations for every link | partial. Two links or more: proved. One link, or a column: violated. | `C52_aggregation_partial` `C52_lookup` `C52_one_link_refuted` `C52_column_refuted` `C52_stable` |
| C53 | run_discrete is reproducible and validates its arguments | run_discrete as a relation (Core/RunCalls) | determinism of all parts (C12); case analysis | proved. The random generator is a parameter (a function of the seed). | `C53_reproducible` `C53_rejected` `C53_draws` `C53_seeds` `C53_precision` `C53_precision_always` `C53_threads_checked_late` `C53_threads_stochastic` `C53_total` |
| C54 | add_choices is add_choice on each name in turn | addChoices | induction on the list | partial. Re-iterable names: proved. One-shot iterators without scales: violated. | `C54_add_choices_partial` `C54_generator_refuted` |
| C55 | Data over the choices is discarded when the choices change | treeCall (Props/ChoiceData), assign, evaluate | permutations of the list of choices; induction over histories and expressions; general and concrete refutations | partial. Holds when only new choices are added (columns and data keep their places, C55_appended_partial; an unfiltered expression then raises because the data are too short, C55_misfit_raises, for every model state). Violated whenever a choice that is not the last one is added again (C55_moved_refuted: every history, every such choice). | `C55_choices_refuted` `C55_misfit_raises` `C55_misfit_filtered` `C55_untouched` `C55_appended_partial` `C55_moved_refuted` |
| C56 | allow_links=False keeps LinkedDataFrames out | table assignment | refutation for all data frames | partial. Violated: the check is inverted (C56_refuted is an equivalence for all data frames). | `C56_refuted` |
| C57 | Rounded multinomial probabilities sum to one | multinomial over Rnd R, R.rnd = binary64 | forward error analysis (Num/Error64, Num/SumError) | proved. IEEE binary64 arithmetic (round to nearest even, subnormals, overflow); exp is arbitrary; C57_run is about whole calls of run_stochastic. | `C57_sum` `C57_run` |
| C58 | Rounded multinomial probabilities are accurate | multinomial over Rnd R, R.rnd = binary64 | forward error analysis against the exact softmax | proved. exp is any function with the stated accuracy (correctly rounded: C58_correctly_rounded). | `C58_run` `C58_accuracy` `C58_correctly_rounded` |
| C59 | Rounded draws follow the rounded probabilities | sampleOnce, logSearch over Rnd R | counting draws between computed cumulative sums; C02; whole calls taken apart row by row (RowRuns, DrawRuns) | proved. The generator of uniform draws is modelled by its documented set of values k/2^53, each once; C59_uniform shows that uniform(MIN_RANDOM_VALUE, 1.0) computes exactly these (0 replaced by the smallest normal number). | `C59_run` `C59_run_exact` `C59_frequency` `C59_search` `C59_zero` `C59_multinomial` `C59_uniform` |
| C60 | Rounded nested logit probabilities sum to one | nested over Rnd R, R.rnd = binary64; RunStochastic | forward error analysis down the tree: conditional shares of each nest, masses per level | proved. IEEE binary64 arithmetic; exp and log are arbitrary; only the overall logsum has to be finite and positive (logsums of nests need not). | `C60_run_draws` `C60_sum` `C60_draws` `C60_run` |
| C61 | link_to accepts exactly the well specified links | LinkArgs.specs, LFrame.keys, createLink, linkTo | case analysis of arguments; exact characterisation over reachable worlds | proved. Level numbers and tables with multi-level columns are not modelled. The docstring announces KeyError for missing columns; the code raises LinkageSpecificationError (C61_missing), and AssertionError for keys of different length. | `C61_arguments` `C61_accepts` `C61_missing` |
| C62 | Assigning model.expressions | appendAll, CModel.setExpressions, setExpressionsText | induction over the texts; concrete refutation | partial. Holds for models without ungrouped expressions when no text is rejected; violated otherwise (it appends). Exact effect: C62_appends. | `C62_appends` `C62_history` `C62_assigned_partial` `C62_refuted` `C62_text` |
| C63 | Sums of expression groups | GHeap (groups with shared sub-group objects) | invariant over histories of calls; refinement to separate groups | partial. Content of sums and isolation without sums: proved. Groups that only one operand has are shared with the sum: violated (C63_shared_refuted, exactly in this case). | `C63_calls` `C63_sum` `C63_copy` `C63_isolated_partial` `C63_append_to_sum_partial` `C63_shared_refuted` |
| C64 | Link targets and link summaries | linkSummary, linkTarget (Core/LdfInfo) | simulation: a book kept from calls and outcomes (Spec/LinkBook) against the frames, by induction on histories | proved. Proved for every history, errors included; the evaluator of aggregation arguments is any one that changes caches only (argEval_quiet: cheval's does). | `C64_target` `C64_summary` `C64_indexed_stays` `C64_indexed_set` `C64_indexed_derived` |
| C65 | Pivot tables see the named columns, lookups and expressions | pivotTable, resolveColumns (Core/LdfPivot) | evaluations change caches only and do not depend on them (evalWith_cache), then a loop without state; dictionaries by lookups | partial. The code violates the property for lists (any non-empty list raises: the whole list is tested against the columns, C65_list_refuted) and for tuples (items are evaluated even if they name a column, C65_tuple_refuted). Proved for texts and for tuples of expressions; changes caches only for all arguments (C65_quiet). pandas' own pivot is a parameter. | `C65_pivot_partial` `C65_quiet` `C65_list_refuted` `C65_tuple_refuted` |
| C66 | Assigned data are those of the time of the assignment | objects, buffers and the symbols that refer to them (Core/Alias) | invariants of the store (different objects, different memory), memory and objects by induction over the later calls; simulation with the value model for callers who leave assigned objects alone | partial. The code violates the property: vectors are views of the caller's array or numeric Series (C66_vector_refuted), matrices with the labels of the model are the DataFrame's own array (C66_matrix_refuted), tables are the caller's DataFrame, so that sorting it in place misaligns values without any check (C66_table_refuted). C66_seen says exactly what each symbol holds after any later calls; C66_hands_off: with a caller who leaves assigned objects alone the value model of all other properties is exact. | `C66_seen` `C66_snapshot_partial` `C66_hands_off` `C66_vector_refuted` `C66_series_refuted` `C66_matrix_refuted` `C66_table_refuted` |
| C67 | Columns reach expressions with their values | convertSeries, maxLen, toBytes (Core/Convert) | induction over the cells (mapE), the width is an upper bound of all lengths, binary64 rounding of integers | partial. The code violates the property for nullable integers (objects if no value is missing: C67_complete_nullable_refuted; doubles, silently rounded above 2^53, otherwise: C67_large_refuted), texts ending in NUL (C67_nul_refuted) and text columns without rows (C67_empty_refuted). Everything else proved: values, whole texts, exactly which columns are accepted, which errors the others raise. Missing cells of categoricals are a parameter (pandas versions differ). | `C67_values_partial` `C67_whole_texts` `C67_accepted` `C67_missing_category` `C67_rejected` `C67_vector_partial` `C67_complete_nullable_refuted` `C67_large_refuted` `C67_nul_refuted` `C67_empty_refuted` |
| C68 | debug_results shows how the utilities of one decision unit build up | DModel.evaluate (Core/Debug), preval, copy and copy_subset (Core/DebugCalls) | the recorded rows are the table after each prefix of the expressions (debugLoop_some); C35 for every prefix | partial. Labels that occur once and are true in Python: proved (C68_debug_partial, C68_transparent). Labels that Python takes for false (the number 0, an empty text) are ignored: C68_false_label_refuted, for every run of every model. preval records the same way and is otherwise unchanged (C68_preval, C68_preval_transparent). Copies take over debug_id: a copy_subset without the debugged unit raises KeyError in every run and preval (C68_subset_refuted). C68_shape: in every run of every model the recorded table has the shape described. A debug_id that stands for two decision units makes every run fail (C68_repeated_refuted). | `C68_debug_partial` `C68_transparent` `C68_unknown` `C68_false_label_refuted` `C68_preval` `C68_preval_transparent` `C68_subset_refuted` `C68_shape` `C68_repeated_refuted` `C68_copies` |
| C69 | Handles keep describing their choices | ChoiceNode members, treeTrace (Core/Handles) | invariant relating every heap node to the list of calls and outcomes (Told), kept by every call | proved. Handles are numbers in the order of creation; the history is the list of calls with their outcomes. | `C69_distinct` `C69_top` `C69_nested` `C69_scale` `C69_children` `C69_max_level` `C69_live` |
| C70 | Draws come from the reported distribution | RunDiscrete and RunStochastic on one model (Core/RunCalls) | both calls reduced to the same row function (C12), inverse of the distribution function restricted to the elemental choices | proved. Exact arithmetic; random numbers in [tiny, 1]; C59 covers rounding. Utilities with NaN or +inf are C37. | `C70_draws` `C70_frequency` `C70_exactly_one` |
| C71 | Stored utilities have the model's precision | PModel, precisionRun (Core/Precision) | invariant over histories; the violation on the example model | partial. Violated: the width is fixed when the table is created, later assignments to precision are ignored until the table is dropped (C71_refuted). Proved when precision is only assigned while no utilities are stored (C71_width_partial); what the precision attribute reports after any history is C71_reads. | `C71_width_partial` `C71_kept` `C71_refuted` `C71_reads` |
| C72 | Nested logit probabilities are accurate in double precision | nested over Rnd R, R.rnd = binary64; RunStochastic | forward error analysis on the logarithmic scale, upwards through the tree for the terms and downwards for the probabilities | proved. IEEE binary64 arithmetic; exp and log are any functions with the stated accuracy (correctly rounded: C72_correctly_rounded, where the bound is in terms of the largest utility). No condition on availability inside the tree. | `C72_run` `C72_accuracy` `C72_terms_bounded` `C72_correctly_rounded` `C72_feasibility` |
| C73 | Utilities in double precision | runUtilities over Rnd R, R.rnd = binary64 | C35 (utilities = sum), error of a rounded sum by induction over the expressions with a common exponent; permutations by comparing both with the exact sum | proved. IEEE binary64 arithmetic. The values of single expressions are whatever the evaluator computed (their own rounding is not bounded); C73_order_matters exhibits a model whose utilities do depend on the order. | `C73_accuracy` `C73_order` `C73_order_matters` |
| C74 | Probabilities follow from the values of the expressions, in double precision | RunStochastic over Rnd R, R.rnd = binary64 | C73 for the utilities, Lipschitz bound of the exact nested logit by induction over the tree on the logarithmic scale, C58_run and C72_run for the computed probabilities | proved. Combines C73, C58/C72 and a sensitivity bound for exact (nested) logit. The values of single expressions are whatever the evaluator computed. | `C74_flat` `C74_nested` `C74_sensitivity` `C74_sensitivity_flat` |
| C75 | Finite utilities of any size give probabilities | multinomial, nested and runs over F64 (multinomial also F32; correctly rounded exp and log) | bounds of exp against the overflow and underflow thresholds; runs taken apart row by row (RowRuns); for nests, the range of all terms by induction over the levels and propagation of +inf up the tree; concrete models (flat, and a nest with a small scale) refute the full statement | partial. Violated (C75_refuted: utilities 0, 1000, 0; C75_nested_refuted: utility 8 in a nest of scale 1/128). In-range theorems carry _partial; the limits are proved for one row and for runs, exp being correctly rounded. | `C75_run_partial` `C75_overflow_run` `C75_overflow_draws` `C75_refuted` `C75_in_range_partial` `C75_in_range_single_partial` `C75_overflow` `C75_overflow_single` `C75_underflow` `C75_underflow_single` `C75_nested_overflow` `C75_nested_in_range_partial` `C75_nested_run_partial` `C75_nested_overflow_run` `C75_nested_overflow_draws` `C75_nested_refuted` |
| C76 | Models of single precision are accurate to single precision | multinomial and RunStochastic over F32: exp rounded to binary32, sums and quotients in binary64; nests over binary64 on utilities converted to binary32 after each addition (narrow) | relative error of exp, share_acc, error of k additions each converted to binary32 (narrow_sum), Lipschitz bounds of the exact logit and nested logit (C74) | proved. float32 exp, double sums, as Numba types the loop for float32 utilities; exp correctly rounded to binary32. The sums written to the float32 table: added in binary64, converted to binary32 (NumExpr with casting='same_kind'). Nested models convert to float64 first (core.py:168), so C76_nested is over binary64 arithmetic. | `C76_accuracy` `C76_in_range` `C76_run` `C76_stored` `C76_utilities` `C76_flat` `C76_nested` |
| C77 | Utilities stay with their choices when the choices change | CModel.addChoice, addNested (cached table kept or dropped); all calls of a history (ModelOp) | run_sound from the kept table; invariant (fewer stored columns than choices) over histories; refinement of the tree for the new order; concrete refutation | partial. Holds for add_choice and add_choices of the model (C77_top). Violated for nested choices: the exact effects are C77_stuck (a new nested choice: no run succeeds any more) and C77_moved (a nested choice added again: the columns of the kept table stay); C77_refuted is a history in which A.y gets the utilities of A.x. | `C77_top` `C77_stuck` `C77_moved` `C77_refuted` |
| C78 | Links are attributes, and listed | LEnv.item, LEnv.attribute (single accesses on frames, nodes and aggregators), LWorld.dir | induction along the chain: steps of items reach a node exactly along links (walk); attributes agree with items; invariant on the listed names over histories, against the book of links (Spec/LinkBook) | partial. Dotted access is access by [] whenever no name of the chain is an attribute of the classes (C78_attributes, C78_aggregations, C78_missing, C78_reachable), and dir lists the identifiers (C78_listed). Violated for aliases like index (C78_shadowed_refuted) and for groups of a groupby (C78_group_refuted); C78_only_partial leaves groupby out. | `C78_items` `C78_attributes` `C78_missing` `C78_aggregations` `C78_listed` `C78_only_partial` `C78_group_refuted` `C78_reachable` `C78_shadowed_refuted` |
| C79 | Columns are treated by the type of their values | inferDtype on Series described by dtype and, for objects, by the classes of the values; defaultFills | case analysis over dtypes, for object columns over the classes of all values; composition with C50 and C45 | partial. infer_dtype and the built-in fills; for which dtypes the property holds is settled by an equivalence over all of them (C79_exact_partial), carried to lookups and aggregations in any safe history (C79_fill_partial, C79_fill_linked_partial, C79_aggregated_partial). Violated for nullable numbers and numbers stored as objects, in every state (C79_numbers_refuted). | `C79_exact_partial` `C79_fill_partial` `C79_fill_linked_partial` `C79_aggregated_partial` `C79_numbers_refuted` |
| C80 | Nested probabilities obey the nested logit laws | nested on tables, through the textbook model of C09 | T and P are compared along the tree by induction upwards and downwards; laws by exhibiting the transformed solution and uniqueness of the textbook solution; violation for a family of rows on every such tree; whole calls by C20 and a permutation of the positions of the choices of two histories | partial. Everything but 'never raises others' holds for all trees (C80_translation, C80_exchange, C80_odds, C80_own, C80_reorder). That part holds where no nest around the choice has a larger scale than its own parent (C80_cross_partial), so with one level of nests (C80_cross_two_levels) or without scaling (C80_cross_unscaled), and is violated otherwise (C80_cross_refuted, for every tree with such nests). For whole calls of run_stochastic: C80_order (two histories that leave the same choices and scales, in any order, give the same table, label by label), C80_run_own, C80_run_cross_partial. | `C80_order` `C80_run_own` `C80_run_cross_partial` `C80_translation` `C80_exchange` `C80_odds` `C80_own` `C80_cross_partial` `C80_cross_unscaled` `C80_cross_two_levels` `C80_reorder` `C80_cross_refuted` |
| C81 | evaluate(out=series) stores the values of evaluate in the series | out and allow_casting of evaluate: when what is written, on top of the frames of C51 | equation between evaluate with and without out, by cases of the steps; writing into a column compared with the frame history of evaluate and assignment; violations for every frame | partial. NumPy's conversion into the Series is a parameter (StoreIn) that only has to keep the length of the array. C81_out is an equation with evaluate, so everything proved about evaluate (C51) carries over; C81_column relates two histories of frames. Missing lengths: C81_local_refuted and C81_one_row_refuted show that out is overwritten before the ValueError. | `C81_out` `C81_length` `C81_length_partial` `C81_column` `C81_local_refuted` `C81_one_row_refuted` `C81_no_column` |
| C82 | The logsum is the composite utility of the choices | multinomial and nested on rows, through the textbook model of C09; calls as for C07 | derivative of the terms by induction up the tree, with the conditional probabilities as factors; monotonicity and constants by exhibiting the transformed solution; calls by the convexity of exp (Jensen) | proved. Exact arithmetic (XR). Slope, constant and monotonicity are stated for one row, for all trees (C82_slope, C82_slope_unscaled, C82_translation, C82_monotone) and for one level (C82_multinomial, C82_multinomial_translation); whole calls of run_stochastic: C82_run_gain, C82_run_flat_monotone, C82_run_flat_translation (one level), C82_run_monotone, C82_run_translation, C82_run_slope, C82_run_slope_unscaled, C82_run_nested_gain (nested models); gains on trees: C82_gain. | `C82_slope` `C82_slope_unscaled` `C82_monotone` `C82_translation` `C82_multinomial` `C82_multinomial_translation` `C82_gain` `C82_run_nested_gain` `C82_run_monotone` `C82_run_translation` `C82_run_slope` `C82_run_slope_unscaled` `C82_run_gain` `C82_run_flat_monotone` `C82_run_flat_translation` |

## 3. Trusted base

* Lean 4.33.0's kernel. No axioms are added; no `native_decide`, no `bv_decide`. Every theorem depends on at most
  `propext`, `Classical.choice` and `Quot.sound` (many on fewer).
* Mathlib's definitions of ℝ, exp, log, measure, lists.
* The reading of the Python code: every model definition cites file and lines. The code cannot be run here.

### Modelled

* core.py: all functions (sampling, multinomial and nested probabilities, the six workers, weighted sampling, indexed addition).
* model.py: all methods of ChoiceModel (tree, decision units, declarations, assignment, validate, evaluation, run_discrete,
  run_stochastic, preval, copy, copy_subset, add_partial_utilities) and the debugging attributes, except logging.
* api.py: ChoiceNode, expression groups, the four symbol classes.
* parsing/: the transformer from syntax tree to rewritten syntax tree and recorded symbols, chains and dict literals.
* ldf/: link_to, indexers, aggregation flag, missing rows, link nodes, lookups and aggregations, slicing, `__finalize__`, groupby
  slices, compute_indexers, fill values (class, frame, column, temporary), evaluate (with `out`), setting columns.
* utils.py: convert_series as far as its result is used (a parameter converts a column to an array, length-preserving).

### Parameters (assumptions recorded in the types; everything is proved for all of them)

* `PyParser`: `ast.parse`, a function from text to syntax tree or SyntaxError. `PyEnv`: the interpreter version's syntax tree for
  text constants, the set of NumExpr functions, single precision rounding.
* `Arith`/`Kernel`: NumExpr's element-wise arithmetic (partial functions), and the accumulation `OUT + expr` in the table's dtype.
* `LEnv`: fill value casting, group reductions, which reductions pandas admits for a dtype. `EvEnv`: conversion of columns to arrays, pandas' own `eval`.
* In the theorems on double precision (C57-C60, C72-C75) the basic operations are IEEE binary64 operations (`R.rnd = B64.rnd`: round to nearest,
  ties to even, subnormals, overflow to infinity; sums are sequential, the Numba decorators do not set fastmath); `exp`, `log` and `pow`
  are arbitrary, except for an error bound of `exp` where stated. A uniform draw is one of the `2^53` values `k/2^53`
  (C59_uniform: `MIN + (1 - MIN) * (k/2^53)` in double precision is `k/2^53`, or MIN for `k = 0`). For models of precision 4 without nests
  (C75, C76) `exp` is rounded to binary32 and the sums and quotients are binary64 (`Num/Binary32`); with nests everything is binary64 on
  utilities which are converted to binary32 after every addition (`narrow`).
* The random generator: a function from seed to stream; `np.random.seed` makes the stream a function of the seed.
* Schedules of threads: quantified over, as interleavings of atomic loads and stores. An exception raised in an iteration of a parallel
  loop is taken to be raised by the call; Numba may lose exceptions of worker threads (their rows then stay zero) or raise SystemError.
  Runs in which no row raises are not affected.

### Not modelled

* `ast.parse`, `astor.to_source` and NumExpr's own parser: the rewritten tree is handed to NumExpr as a tree.
* dtypes beyond the kind (int, float, bool, text, time, ...) that cheval inspects (how it is inferred: `Core/Dtype`; the step from timedeltas and periods to a stored NaT is left out); NumExpr's casting. Memory sharing between symbols and
  the caller's objects is modelled (Core/Alias), except objects of the caller that share memory with each other.
* NumExpr's fallback from the local names to the globals of the calling module: a name that is not bound (in models only one below a unary minus or in a
  keyword argument, as all others are checked) and happens to be a global of model.py or ldf/api.py, such as `NEG_INF_VAL`, has the global's value; in the model it is an error.
* NumExpr's evaluation in blocks and its thread pool; Numba's compilation; the memory model below atomic loads and stores.
* pandas internals: operations are modelled by what they return (positions selected, labels, finalize hooks called); `pivot_table` beyond
  the DataFrame it builds; `to_csv`; `__dir__`, `__str__`, `__repr__`.
* Logging, progress output, timing.
* Python exceptions raised by passing objects of the wrong type.

## 4. Violations found by reading and proving

C03 (a zero-probability choice can be drawn in binary64), C12 (worker_weighted_sample: draws outside the calling thread do not follow the
seed, three or more draws raise), C13 (lost update for repeated labels), C17 (children of a replaced nest stay),
C18 (rejected add_choice deletes the old choice; a dotted name deletes a nested choice), C21/C22/C25/C51 (operands of unary minus are not
visited; `None`; strings on Python ≥ 3.8), C23 (copies and sums forget the roles of names), C24 (symbols of a rejected expression stay
required), C26 (substitution names collide), C28 (`A._` resets `A`; values rounded to single precision), C29 (mode check inverted),
C30 (`OUT.a`), C33 (both axes; fill value cast), C34 (cached utilities survive new units), C36 (second run doubles), C37 (NaN sticks),
C39 (clean-up removes shared symbols; KeyError for reserved words), C41 (leftover symbols; stored utilities in another order), C45 (NaN keys shift groups; nth), C46/C48
(lazy links), C47 (finalize-only operations), C49 (cached missing rows, slices), C50 (class defaults, derived frames, temporary defaults),
C52 (one-link aggregations), C53 (thread count checked late), C54 (generators), C55 (stale choice data), C56 (inverted check), C62 (assigning
expressions appends; a text is taken as a list of characters), C63 (sums share sub-groups with
their operands), C65 (lists of names raise, tuples of column names are evaluated), C66 (symbols share memory with the caller's objects), C68 (the decision unit 0 cannot be debugged), C67 (nullable integers,
texts ending in NUL, text columns without rows), C71 (precision assigned after a run), C75 (exp overflows: NaN
probabilities and the last choice drawn; finite utilities far below zero reported infeasible; in nests with small scales the same happens for ordinary utilities),
C77 (choices added through a handle leave the stored utilities as they are: runs fail, or choices get the utilities of others);
C78 (a link may be called like an attribute of DataFrames, and is then listed but not reachable as attribute; groups of a groupby list aliases that are
no identifiers); C79 (nullable numbers, and numbers or mixed values stored as objects, get the fill of objects or texts and cannot be aggregated); C80 (a nest with a larger scale than the nest around it is accepted; then raising one choice's utility can raise another's probability); C81 (`out` of the wrong length is overwritten before the error when the expression reads no
column or the frame has one row); C04
is stated for weights of positive total: for all-zero weights the code divides zero by zero and always draws the last choice (C04_zero_weights).

## 5. Tests against wrong programs

`seeded/LOG.jsonl`: one line per edited model definition (a wrong boundary, swapped argument, dropped update, ...), with the property
theorems that no longer hold. A theorem counts as failed if its proof, or the proof of a lemma it depends on, no longer checks.

## 6. The repository's own tests on the model

`Props/UpstreamTests.lean` runs the data of testing/ (test_ldf.py, test_parsing.py and those parts of test_core.py that need no exponential) on the
model, through the kernel, and compares with the values those tests assert. It checks the model, not the code: the model gives what the
repository's authors saw the code give.
