{
 "claims": [
  {
   "property": "C01",
   "status": "proved",
   "theorems": [
    "Cheval.C01_single_draw",
    "Cheval.C01_small_draw",
    "Cheval.C01_single_draw_exact"
   ],
   "note": "Every carrier with the order laws FLaws (exact reals, every monotone rounding, IEEE binary64); exact reals also as inequalities on real sums."
  },
  {
   "property": "C02",
   "status": "proved",
   "theorems": [
    "Cheval.C02_search_eq_scan",
    "Cheval.C02_zero_draw",
    "Cheval.C02_multi_draw",
    "Cheval.C02_out_length",
    "Cheval.C02_weights"
   ],
   "note": "Binary search invariant; every carrier with FLaws. The random stream is a parameter."
  },
  {
   "property": "C03",
   "status": "partial",
   "theorems": [
    "Cheval.C03_iff",
    "Cheval.C03_positive_partial",
    "Cheval.C03_zero_probability_refuted"
   ],
   "note": "Proved when the draw does not exceed the computed total; refuted beyond it by a concrete binary64 row. The full claim is false of the code; C03_iff gives the exact condition."
  },
  {
   "property": "C04",
   "status": "proved",
   "theorems": [
    "Cheval.C04_frequency",
    "Cheval.C04_weights",
    "Cheval.C04_zero_weights"
   ],
   "note": "Lebesgue measure of the set of draws; exact arithmetic."
  },
  {
   "property": "C05",
   "status": "proved",
   "theorems": [
    "Cheval.C05_run",
    "Cheval.C05_formula",
    "Cheval.C05_distribution"
   ],
   "note": "Exact arithmetic (XR). C05_run states it about run_stochastic of a model built with the API, by label."
  },
  {
   "property": "C06",
   "status": "proved",
   "theorems": [
    "Cheval.C06_run",
    "Cheval.C06_returned",
    "Cheval.C06_run_discrete",
    "Cheval.C06_check",
    "Cheval.C06_nocheck",
    "Cheval.C06_flag"
   ],
   "note": "C06_run, C06_returned and C06_run_discrete state it about run_stochastic and run_discrete of a model built with the API."
  },
  {
   "property": "C07",
   "status": "proved",
   "theorems": [
    "Cheval.C07_run_translation",
    "Cheval.C07_run_odds",
    "Cheval.C07_run_monotone",
    "Cheval.C07_translation",
    "Cheval.C07_odds",
    "Cheval.C07_monotone",
    "Cheval.C07_permutation"
   ],
   "note": "Exact arithmetic. C07_run_translation, C07_run_odds and C07_run_monotone relate two run_stochastic calls; independence of the order of the choices at that level is C80_order."
  },
  {
   "property": "C08",
   "status": "proved",
   "theorems": [
    "Cheval.C08_distribution"
   ],
   "note": "Every well-formed forest of any depth and width; exact arithmetic. C16 shows that models built with the API give such forests."
  },
  {
   "property": "C09",
   "status": "proved",
   "theorems": [
    "Cheval.C09_spec_unique",
    "Cheval.C09_textbook"
   ],
   "note": "Against Spec.Tree.IsNestedLogit, a recursion-free characterisation proved to have exactly one solution."
  },
  {
   "property": "C10",
   "status": "proved",
   "theorems": [
    "Cheval.C10_run",
    "Cheval.C10_run_independent",
    "Cheval.C10_run_discrete",
    "Cheval.C10_infeasible_iff",
    "Cheval.C10_nocheck_zero",
    "Cheval.C10_zero_iff",
    "Cheval.C10_independent"
   ],
   "note": "C10_run, C10_run_discrete and C10_run_independent state it about run_stochastic and run_discrete of a model built with the API."
  },
  {
   "property": "C11",
   "status": "proved",
   "theorems": [
    "Cheval.C11_run",
    "Cheval.C11_collapse"
   ],
   "note": "C11_run states it about run_stochastic of a model built with the API."
  },
  {
   "property": "C12",
   "status": "proved",
   "theorems": [
    "Cheval.C12_multinomial_probabilities",
    "Cheval.C12_nested_probabilities",
    "Cheval.C12_multinomial_sample",
    "Cheval.C12_nested_sample",
    "Cheval.C12_deterministic",
    "Cheval.C12_completes",
    "Cheval.C12_weighted_sample",
    "Cheval.C12_weighted_streams",
    "Cheval.C12_weighted_one_thread",
    "Cheval.C12_weighted_unseeded",
    "Cheval.C12_run_stochastic_total"
   ],
   "note": "Every interleaving of atomic memory operations of the iterations; exceptions of iterations included. worker_weighted_sample (not used by the model) draws inside its parallel region, so only draws made by the calling thread follow the seed: C12_weighted_unseeded; with three or more draws it raises (C12_weighted_sample)."
  },
  {
   "property": "C13",
   "status": "proved",
   "theorems": [
    "Cheval.C13_model",
    "Cheval.C13_model_rejected",
    "Cheval.C13_run",
    "Cheval.C13_total",
    "Cheval.C13_added_once",
    "Cheval.C13_rejected",
    "Cheval.C13_duplicate_labels_refuted"
   ],
   "note": "All parts of the statement: the addition under every schedule, the rejection, the exact effect in the state of a model, and the lost update for repeated labels (the theorem named _refuted, which is the last sentence of the statement)."
  },
  {
   "property": "C14",
   "status": "proved",
   "theorems": [
    "Cheval.C14_multinomial",
    "Cheval.C14_nested",
    "Cheval.C14_cumsum_monotone"
   ],
   "note": "Any monotone rounding; binary64 is an instance (Num/Binary64)."
  },
  {
   "property": "C15",
   "status": "proved",
   "theorems": [
    "Cheval.C15_choices",
    "Cheval.C15_insertion_order",
    "Cheval.C15_results",
    "Cheval.C15_successful",
    "Cheval.C15_any_history"
   ],
   "note": "Histories of any length; strings are lists of characters, the join of names is proved injective."
  },
  {
   "property": "C16",
   "status": "proved",
   "theorems": [
    "Cheval.C16_history",
    "Cheval.C16_probabilities",
    "Cheval.C16_flatten",
    "Cheval.C16_flat_model"
   ],
   "note": ""
  },
  {
   "property": "C17",
   "status": "partial",
   "theorems": [
    "Cheval.C17_nested_refuted",
    "Cheval.C17_visible_state",
    "Cheval.C17_replaces_partial",
    "Cheval.C17_orphans_refuted"
   ],
   "note": "Holds for choices in which nothing is nested; for every replaced nest the code violates it (C17_nested_refuted: no nested choice disappears and the nest is listed as elemental; C17_orphans_refuted is a concrete case)."
  },
  {
   "property": "C18",
   "status": "partial",
   "theorems": [
    "Cheval.C18_iff",
    "Cheval.C18_lost",
    "Cheval.C18_rejected_partial",
    "Cheval.C18_only_illegal",
    "Cheval.C18_rejected_refuted",
    "Cheval.C18_dotted_refuted"
   ],
   "note": "Holds when the name is not in use; violated otherwise (two ways). C18_iff: exactly when; C18_lost: exactly what is lost."
  },
  {
   "property": "C19",
   "status": "proved",
   "theorems": [
    "Cheval.C19_validate"
   ],
   "note": ""
  },
  {
   "property": "C20",
   "status": "proved",
   "theorems": [
    "Cheval.C20_stochastic_nested",
    "Cheval.C20_discrete_nested",
    "Cheval.C20_stochastic_flat",
    "Cheval.C20_discrete_flat",
    "Cheval.C20_run_stochastic_nested",
    "Cheval.C20_run_discrete_nested",
    "Cheval.C20_run_stochastic_flat",
    "Cheval.C20_run_discrete_flat"
   ],
   "note": "Whole calls, every schedule; exact arithmetic."
  },
  {
   "property": "C21",
   "status": "proved",
   "theorems": [
    "Cheval.C21_rewriting",
    "Cheval.C21_minus",
    "Cheval.C21_none_refuted",
    "Cheval.C21_minus_refuted",
    "Cheval.C21_string_refuted",
    "Cheval.C21_nan_names"
   ],
   "note": "C21_rewriting is the stated property; C21_minus: symbols under unary minus that another expression of the model uses. The _refuted theorems show what happens outside it: unary minus on names, None, strings on Python >= 3.8."
  },
  {
   "property": "C22",
   "status": "partial",
   "theorems": [
    "Cheval.C22_recorded_partial",
    "Cheval.C22_minus_refuted",
    "Cheval.C22_reachable_partial",
    "Cheval.C22_exact",
    "Cheval.C22_exact_reachable"
   ],
   "note": "Proved for every history except symbols standing only below a unary minus or in keyword arguments; there it is violated (C22_minus_refuted). C22_exact, C22_exact_reachable: with no hypothesis, exactly the unchecked names."
  },
  {
   "property": "C23",
   "status": "proved",
   "theorems": [
    "Cheval.C23_disjoint",
    "Cheval.C23_rejected",
    "Cheval.C23_copy_refuted",
    "Cheval.C23_plus_refuted"
   ],
   "note": "Every history of appends, drops and clears. The _refuted theorems go beyond the statement: copies and sums of groups lose the check."
  },
  {
   "property": "C24",
   "status": "partial",
   "theorems": [
    "Cheval.C24_rejected_partial",
    "Cheval.C24_syntax_error",
    "Cheval.C24_symbols_refuted",
    "Cheval.C24_left_behind",
    "Cheval.C24_left_operand",
    "Cheval.C24_leftovers",
    "Cheval.C24_unchanged"
   ],
   "note": "Expressions unchanged: proved. Required symbols unchanged: violated; C24_left_behind says exactly what stays behind: the variables of a beginning of the rejected expression in reading order (C24_left_operand: those of an accepted left operand always do); C24_unchanged says when nothing does."
  },
  {
   "property": "C25",
   "status": "proved",
   "theorems": [
    "Cheval.C25_rejected",
    "Cheval.C25_minus_refuted",
    "Cheval.C25_exact",
    "Cheval.C25_append_exact"
   ],
   "note": "C25_exact and C25_append_exact characterise acceptance exactly (grammar in Spec/ExprSupported). C25_minus_refuted shows the positions the statement excludes."
  },
  {
   "property": "C26",
   "status": "partial",
   "theorems": [
    "Cheval.C26_iff",
    "Cheval.C26_distinct_partial",
    "Cheval.C26_same_table",
    "Cheval.C26_collision_refuted"
   ],
   "note": "Proved when no table name is another one followed by digits; violated otherwise. C26_iff: exactly when."
  },
  {
   "property": "C27",
   "status": "proved",
   "theorems": [
    "Cheval.C27_split",
    "Cheval.C27_confined",
    "Cheval.C27_unknown"
   ],
   "note": ""
  },
  {
   "property": "C28",
   "status": "partial",
   "theorems": [
    "Cheval.C28_row",
    "Cheval.C28_dict_partial",
    "Cheval.C28_unknown",
    "Cheval.C28_reset_refuted",
    "Cheval.C28_rounded_refuted",
    "Cheval.C28_written"
   ],
   "note": "C28_row is the exact meaning; the documented meaning holds unless an entry for A precedes A._ (C28_dict_partial) and is violated then; values are rounded to single precision."
  },
  {
   "property": "C29",
   "status": "partial",
   "theorems": [
    "Cheval.C29_accepted",
    "Cheval.C29_modes_refuted"
   ],
   "note": "Accepted in models: proved. Rejected in LinkedDataFrame.evaluate: violated."
  },
  {
   "property": "C30",
   "status": "partial",
   "theorems": [
    "Cheval.C30_reachable",
    "Cheval.C30_reserved_refuted",
    "Cheval.C30_validate",
    "Cheval.C30_sound"
   ],
   "note": "Proved for every history except dotted reserved words (OUT.a), where it is violated."
  },
  {
   "property": "C31",
   "status": "proved",
   "theorems": [
    "Cheval.C31_declare",
    "Cheval.C31_words",
    "Cheval.C31_history",
    "Cheval.C31_seen"
   ],
   "note": "C31_words lists the reserved words and the prefixes literally."
  },
  {
   "property": "C32",
   "status": "proved",
   "theorems": [
    "Cheval.C32_rejected",
    "Cheval.C32_only",
    "Cheval.C32_series",
    "Cheval.C32_array",
    "Cheval.C32_table",
    "Cheval.C32_number",
    "Cheval.C32_fits",
    "Cheval.C32_history"
   ],
   "note": "One assignment (C32_fits) and every history of calls that leave the choices alone (C32_history: new decision units discard the data, copies and subsets keep the size; when the choices change see C55)."
  },
  {
   "property": "C33",
   "status": "proved",
   "theorems": [
    "Cheval.C33_accept",
    "Cheval.C33_value",
    "Cheval.C33_both_refuted",
    "Cheval.C33_fill_refuted"
   ],
   "note": "C33_accept and C33_value state exactly when data are accepted and what is stored, including the two deviations the statement names (shown concretely by the _refuted theorems)."
  },
  {
   "property": "C34",
   "status": "partial",
   "theorems": [
    "Cheval.C34_units_partial",
    "Cheval.C34_not_ready",
    "Cheval.C34_refuted",
    "Cheval.C34_stale",
    "Cheval.C34_stuck",
    "Cheval.C34_doubled_refuted"
   ],
   "note": "Symbols: proved (C34_units_partial, C34_not_ready). Utilities start from zero: violated; what happens instead is proved for every history: C34_stale (same number of units: the next run adds to the old utilities) and C34_stuck (another number: no run succeeds until the table is dropped)."
  },
  {
   "property": "C35",
   "status": "proved",
   "theorems": [
    "Cheval.C35_append",
    "Cheval.C35_in_force",
    "Cheval.C35_history",
    "Cheval.C35_sum",
    "Cheval.C35_texts",
    "Cheval.C35_order",
    "Cheval.C35_total_is_sum",
    "Cheval.C35_exact_order_free"
   ],
   "note": "Against Spec/Utilities, for an arbitrary arithmetic; order independence for order-free addition. Which expressions are summed after any history of calls, copies included: C35_history with C35_in_force; one call of append: C35_append."
  },
  {
   "property": "C36",
   "status": "partial",
   "theorems": [
    "Cheval.C36_add_choice",
    "Cheval.C36_second_run",
    "Cheval.C36_doubled",
    "Cheval.C36_refuted"
   ],
   "note": "Violated in general (C36_doubled: exactly twice the utilities)."
  },
  {
   "property": "C37",
   "status": "partial",
   "theorems": [
    "Cheval.C37_success",
    "Cheval.C37_error",
    "Cheval.C37_iff",
    "Cheval.C37_stuck",
    "Cheval.C37_refuted"
   ],
   "note": "NaN detection: proved both ways. 'A failed run leaves the model usable': violated (C37_stuck, C37_refuted)."
  },
  {
   "property": "C38",
   "status": "proved",
   "theorems": [
    "Cheval.C38_preval",
    "Cheval.C38_uncopied",
    "Cheval.C38_unknown_group"
   ],
   "note": ""
  },
  {
   "property": "C39",
   "status": "partial",
   "theorems": [
    "Cheval.C39_removed_partial",
    "Cheval.C39_shared_refuted",
    "Cheval.C39_uncopied_partial",
    "Cheval.C39_kept_partial",
    "Cheval.C39_refuted",
    "Cheval.C39_reserved_refuted"
   ],
   "note": "Holds on models that were not copied; violated on copies (two ways). C39_removed_partial says exactly which symbols are removed on a copy, C39_shared_refuted is the violation for every copied model with a variable shared by two groups."
  },
  {
   "property": "C40",
   "status": "proved",
   "theorems": [
    "Cheval.C40_isolated",
    "Cheval.C40_refines",
    "Cheval.C40_copy",
    "Cheval.C40_shared_nodes"
   ],
   "note": "Heap of Python objects with any number of models and copies; the exception named in the statement is C40_shared_nodes."
  },
  {
   "property": "C41",
   "status": "partial",
   "theorems": [
    "Cheval.C41_calls",
    "Cheval.C41_linked",
    "Cheval.C41_stored",
    "Cheval.C41_reordered_refuted",
    "Cheval.C41_utilities",
    "Cheval.C41_leftover_refuted",
    "Cheval.C41_run_stochastic",
    "Cheval.C41_group",
    "Cheval.C41_accepted",
    "Cheval.C41_history_partial"
   ],
   "note": "Utilities and probabilities; C41_calls states it for models prepared by any calls leaving choices and decision units alone, with no condition on data or kept utilities; every history for runs of a group, and for runs of all expressions unless leftover symbols of rejected or dropped expressions exist (violated then: C41_leftover_refuted). C41_linked covers LinkedDataFrames in tables. With stored utilities in another order of the units (C34) the subset goes by label and the run by position (C41_stored, C41_reordered_refuted)."
  },
  {
   "property": "C42",
   "status": "proved",
   "theorems": [
    "Cheval.C42_lookup"
   ],
   "note": "Every history of safe operations (all except those of C47 and C49 and naming a link like a column)."
  },
  {
   "property": "C43",
   "status": "proved",
   "theorems": [
    "Cheval.C43_chain",
    "Cheval.C43_compose"
   ],
   "note": ""
  },
  {
   "property": "C44",
   "status": "proved",
   "theorems": [
    "Cheval.C44_flag",
    "Cheval.C44_many_to_many",
    "Cheval.C44_rejected",
    "Cheval.C44_accepted"
   ],
   "note": ""
  },
  {
   "property": "C45",
   "status": "partial",
   "theorems": [
    "Cheval.C45_chain_partial",
    "Cheval.C45_single_partial",
    "Cheval.C45_column_partial",
    "Cheval.C45_refused",
    "Cheval.C45_nan_refuted",
    "Cheval.C45_nth_refuted",
    "Cheval.C45_exact",
    "Cheval.C45_shifted"
   ],
   "note": "Conditions: link computed, reduction defined on every group, no NaN key in the target; without the last two it is violated (refutations). C45_exact gives the result over one link for every target and reduction, including missing keys and groups without a value (the groups slide); C45_shifted the shift by missing keys."
  },
  {
   "property": "C46",
   "status": "partial",
   "theorems": [
    "Cheval.C46_evaluate",
    "Cheval.C46_slice",
    "Cheval.C46_group",
    "Cheval.C46_aggregate",
    "Cheval.C46_twice",
    "Cheval.C46_lazy_refuted"
   ],
   "note": "Proved for precomputed links, violated for lazily made ones."
  },
  {
   "property": "C47",
   "status": "partial",
   "theorems": [
    "Cheval.C47_effect",
    "Cheval.C47_moved",
    "Cheval.C47_columns_partial",
    "Cheval.C47_moved_refuted",
    "Cheval.C47_dropped_refuted",
    "Cheval.C47_reindex_refuted",
    "Cheval.C47_slice_refuted"
   ],
   "note": "Holds for operations that keep all rows in place on the frame the links were made on; violated otherwise (four ways). C47_effect says exactly what every such operation does instead: lookups go by position in the link's owner."
  },
  {
   "property": "C48",
   "status": "partial",
   "theorems": [
    "Cheval.C48_lazy_partial",
    "Cheval.C48_aggregated_refuted",
    "Cheval.C48_never_refuted"
   ],
   "note": "Plain lookups: proved. Aggregated lookups: violated for every lazily made aggregated link (C48_never_refuted: no aggregation through it ever succeeds until compute_indexers is called or the link is made again)."
  },
  {
   "property": "C49",
   "status": "partial",
   "theorems": [
    "Cheval.C49_refresh_partial",
    "Cheval.C49_cached_refuted",
    "Cheval.C49_slice_refuted",
    "Cheval.C49_permuted_refuted",
    "Cheval.C49_cached_effect",
    "Cheval.C49_cached_right",
    "Cheval.C49_unrefreshed"
   ],
   "note": "Holds before any lookup, on the frame the link was made on (C49_refresh_partial); violated otherwise (three ways). C49_cached_effect says what a refreshed link gives after an earlier lookup, for every history; C49_cached_right for which rows that is right; C49_unrefreshed that without the refresh nothing changes."
  },
  {
   "property": "C50",
   "status": "partial",
   "theorems": [
    "Cheval.C50_set_named",
    "Cheval.C50_temporary",
    "Cheval.C50_history",
    "Cheval.C50_lookup",
    "Cheval.C50_plain",
    "Cheval.C50_class_refuted",
    "Cheval.C50_derived_refuted",
    "Cheval.C50_temporary_refuted"
   ],
   "note": "Fills of frames over every history: proved. Class-level defaults, derived frames and temporary defaults: violated."
  },
  {
   "property": "C51",
   "status": "partial",
   "theorems": [
    "Cheval.C51_sound_partial",
    "Cheval.C51_evaluate_partial",
    "Cheval.C51_names",
    "Cheval.C51_reads",
    "Cheval.C51_arguments",
    "Cheval.C51_minus_refuted"
   ],
   "note": "Unary minus only as in C21 and no clashing names; violated under other unary minuses."
  },
  {
   "property": "C52",
   "status": "partial",
   "theorems": [
    "Cheval.C52_aggregation_partial",
    "Cheval.C52_lookup",
    "Cheval.C52_one_link_refuted",
    "Cheval.C52_column_refuted",
    "Cheval.C52_stable"
   ],
   "note": "Two links or more: proved. One link, or a column: violated."
  },
  {
   "property": "C53",
   "status": "proved",
   "theorems": [
    "Cheval.C53_reproducible",
    "Cheval.C53_rejected",
    "Cheval.C53_draws",
    "Cheval.C53_seeds",
    "Cheval.C53_precision",
    "Cheval.C53_precision_always",
    "Cheval.C53_threads_checked_late",
    "Cheval.C53_threads_stochastic",
    "Cheval.C53_total"
   ],
   "note": "The random generator is a parameter (a function of the seed)."
  },
  {
   "property": "C54",
   "status": "partial",
   "theorems": [
    "Cheval.C54_add_choices_partial",
    "Cheval.C54_generator_refuted"
   ],
   "note": "Re-iterable names: proved. One-shot iterators without scales: violated."
  },
  {
   "property": "C55",
   "status": "partial",
   "theorems": [
    "Cheval.C55_choices_refuted",
    "Cheval.C55_misfit_raises",
    "Cheval.C55_misfit_filtered",
    "Cheval.C55_untouched",
    "Cheval.C55_appended_partial",
    "Cheval.C55_moved_refuted"
   ],
   "note": "Holds when only new choices are added (columns and data keep their places, C55_appended_partial; an unfiltered expression then raises because the data are too short, C55_misfit_raises, for every model state). Violated whenever a choice that is not the last one is added again (C55_moved_refuted: every history, every such choice)."
  },
  {
   "property": "C56",
   "status": "partial",
   "theorems": [
    "Cheval.C56_refuted"
   ],
   "note": "Violated: the check is inverted (C56_refuted is an equivalence for all data frames)."
  },
  {
   "property": "C57",
   "status": "proved",
   "theorems": [
    "Cheval.C57_sum",
    "Cheval.C57_run"
   ],
   "note": "IEEE binary64 arithmetic (round to nearest even, subnormals, overflow); exp is arbitrary; C57_run is about whole calls of run_stochastic."
  },
  {
   "property": "C58",
   "status": "proved",
   "theorems": [
    "Cheval.C58_run",
    "Cheval.C58_accuracy",
    "Cheval.C58_correctly_rounded"
   ],
   "note": "exp is any function with the stated accuracy (correctly rounded: C58_correctly_rounded)."
  },
  {
   "property": "C59",
   "status": "proved",
   "theorems": [
    "Cheval.C59_run",
    "Cheval.C59_run_exact",
    "Cheval.C59_frequency",
    "Cheval.C59_search",
    "Cheval.C59_zero",
    "Cheval.C59_multinomial",
    "Cheval.C59_uniform"
   ],
   "note": "The generator of uniform draws is modelled by its documented set of values k/2^53, each once; C59_uniform shows that uniform(MIN_RANDOM_VALUE, 1.0) computes exactly these (0 replaced by the smallest normal number)."
  },
  {
   "property": "C60",
   "status": "proved",
   "theorems": [
    "Cheval.C60_run_draws",
    "Cheval.C60_sum",
    "Cheval.C60_draws",
    "Cheval.C60_run"
   ],
   "note": "IEEE binary64 arithmetic; exp and log are arbitrary; only the overall logsum has to be finite and positive (logsums of nests need not)."
  },
  {
   "property": "C61",
   "status": "proved",
   "theorems": [
    "Cheval.C61_arguments",
    "Cheval.C61_accepts",
    "Cheval.C61_missing"
   ],
   "note": "Level numbers and tables with multi-level columns are not modelled. The docstring announces KeyError for missing columns; the code raises LinkageSpecificationError (C61_missing), and AssertionError for keys of different length."
  },
  {
   "property": "C62",
   "status": "partial",
   "theorems": [
    "Cheval.C62_appends",
    "Cheval.C62_history",
    "Cheval.C62_assigned_partial",
    "Cheval.C62_refuted",
    "Cheval.C62_text"
   ],
   "note": "Holds for models without ungrouped expressions when no text is rejected; violated otherwise (it appends). Exact effect: C62_appends."
  },
  {
   "property": "C63",
   "status": "partial",
   "theorems": [
    "Cheval.C63_calls",
    "Cheval.C63_sum",
    "Cheval.C63_copy",
    "Cheval.C63_isolated_partial",
    "Cheval.C63_append_to_sum_partial",
    "Cheval.C63_shared_refuted"
   ],
   "note": "Content of sums and isolation without sums: proved. Groups that only one operand has are shared with the sum: violated (C63_shared_refuted, exactly in this case)."
  },
  {
   "property": "C64",
   "status": "proved",
   "theorems": [
    "Cheval.C64_target",
    "Cheval.C64_summary",
    "Cheval.C64_indexed_stays",
    "Cheval.C64_indexed_set",
    "Cheval.C64_indexed_derived"
   ],
   "note": "Proved for every history, errors included; the evaluator of aggregation arguments is any one that changes caches only (argEval_quiet: cheval's does)."
  },
  {
   "property": "C65",
   "status": "partial",
   "theorems": [
    "Cheval.C65_pivot_partial",
    "Cheval.C65_quiet",
    "Cheval.C65_list_refuted",
    "Cheval.C65_tuple_refuted"
   ],
   "note": "The code violates the property for lists (any non-empty list raises: the whole list is tested against the columns, C65_list_refuted) and for tuples (items are evaluated even if they name a column, C65_tuple_refuted). Proved for texts and for tuples of expressions; changes caches only for all arguments (C65_quiet). pandas' own pivot is a parameter."
  },
  {
   "property": "C66",
   "status": "partial",
   "theorems": [
    "Cheval.C66_seen",
    "Cheval.C66_snapshot_partial",
    "Cheval.C66_hands_off",
    "Cheval.C66_vector_refuted",
    "Cheval.C66_series_refuted",
    "Cheval.C66_matrix_refuted",
    "Cheval.C66_table_refuted"
   ],
   "note": "The code violates the property: vectors are views of the caller's array or numeric Series (C66_vector_refuted), matrices with the labels of the model are the DataFrame's own array (C66_matrix_refuted), tables are the caller's DataFrame, so that sorting it in place misaligns values without any check (C66_table_refuted). C66_seen says exactly what each symbol holds after any later calls; C66_hands_off: with a caller who leaves assigned objects alone the value model of all other properties is exact."
  },
  {
   "property": "C67",
   "status": "partial",
   "theorems": [
    "Cheval.C67_values_partial",
    "Cheval.C67_whole_texts",
    "Cheval.C67_accepted",
    "Cheval.C67_missing_category",
    "Cheval.C67_rejected",
    "Cheval.C67_vector_partial",
    "Cheval.C67_complete_nullable_refuted",
    "Cheval.C67_large_refuted",
    "Cheval.C67_nul_refuted",
    "Cheval.C67_empty_refuted"
   ],
   "note": "The code violates the property for nullable integers (objects if no value is missing: C67_complete_nullable_refuted; doubles, silently rounded above 2^53, otherwise: C67_large_refuted), texts ending in NUL (C67_nul_refuted) and text columns without rows (C67_empty_refuted). Everything else proved: values, whole texts, exactly which columns are accepted, which errors the others raise. Missing cells of categoricals are a parameter (pandas versions differ)."
  },
  {
   "property": "C68",
   "status": "partial",
   "theorems": [
    "Cheval.C68_debug_partial",
    "Cheval.C68_transparent",
    "Cheval.C68_unknown",
    "Cheval.C68_false_label_refuted",
    "Cheval.C68_preval",
    "Cheval.C68_preval_transparent",
    "Cheval.C68_subset_refuted",
    "Cheval.C68_shape",
    "Cheval.C68_repeated_refuted",
    "Cheval.C68_copies"
   ],
   "note": "Labels that occur once and are true in Python: proved (C68_debug_partial, C68_transparent). Labels that Python takes for false (the number 0, an empty text) are ignored: C68_false_label_refuted, for every run of every model. preval records the same way and is otherwise unchanged (C68_preval, C68_preval_transparent). Copies take over debug_id: a copy_subset without the debugged unit raises KeyError in every run and preval (C68_subset_refuted). C68_shape: in every run of every model the recorded table has the shape described. A debug_id that stands for two decision units makes every run fail (C68_repeated_refuted)."
  },
  {
   "property": "C69",
   "status": "proved",
   "theorems": [
    "Cheval.C69_distinct",
    "Cheval.C69_top",
    "Cheval.C69_nested",
    "Cheval.C69_scale",
    "Cheval.C69_children",
    "Cheval.C69_max_level",
    "Cheval.C69_live"
   ],
   "note": "Handles are numbers in the order of creation; the history is the list of calls with their outcomes."
  },
  {
   "property": "C70",
   "status": "proved",
   "theorems": [
    "Cheval.C70_draws",
    "Cheval.C70_frequency",
    "Cheval.C70_exactly_one"
   ],
   "note": "Exact arithmetic; random numbers in [tiny, 1]; C59 covers rounding. Utilities with NaN or +inf are C37."
  },
  {
   "property": "C71",
   "status": "partial",
   "theorems": [
    "Cheval.C71_width_partial",
    "Cheval.C71_kept",
    "Cheval.C71_refuted",
    "Cheval.C71_reads"
   ],
   "note": "Violated: the width is fixed when the table is created, later assignments to precision are ignored until the table is dropped (C71_refuted). Proved when precision is only assigned while no utilities are stored (C71_width_partial); what the precision attribute reports after any history is C71_reads."
  },
  {
   "property": "C72",
   "status": "proved",
   "theorems": [
    "Cheval.C72_run",
    "Cheval.C72_accuracy",
    "Cheval.C72_terms_bounded",
    "Cheval.C72_correctly_rounded",
    "Cheval.C72_feasibility"
   ],
   "note": "IEEE binary64 arithmetic; exp and log are any functions with the stated accuracy (correctly rounded: C72_correctly_rounded, where the bound is in terms of the largest utility). No condition on availability inside the tree."
  },
  {
   "property": "C73",
   "status": "proved",
   "theorems": [
    "Cheval.C73_accuracy",
    "Cheval.C73_order",
    "Cheval.C73_order_matters"
   ],
   "note": "IEEE binary64 arithmetic. The values of single expressions are whatever the evaluator computed (their own rounding is not bounded); C73_order_matters exhibits a model whose utilities do depend on the order."
  },
  {
   "property": "C74",
   "status": "proved",
   "theorems": [
    "Cheval.C74_flat",
    "Cheval.C74_nested",
    "Cheval.C74_sensitivity",
    "Cheval.C74_sensitivity_flat"
   ],
   "note": "Combines C73, C58/C72 and a sensitivity bound for exact (nested) logit. The values of single expressions are whatever the evaluator computed."
  },
  {
   "property": "C75",
   "status": "partial",
   "theorems": [
    "Cheval.C75_run_partial",
    "Cheval.C75_overflow_run",
    "Cheval.C75_overflow_draws",
    "Cheval.C75_refuted",
    "Cheval.C75_in_range_partial",
    "Cheval.C75_in_range_single_partial",
    "Cheval.C75_overflow",
    "Cheval.C75_overflow_single",
    "Cheval.C75_underflow",
    "Cheval.C75_underflow_single",
    "Cheval.C75_nested_overflow",
    "Cheval.C75_nested_in_range_partial",
    "Cheval.C75_nested_run_partial",
    "Cheval.C75_nested_overflow_run",
    "Cheval.C75_nested_overflow_draws",
    "Cheval.C75_nested_refuted"
   ],
   "note": "Violated (C75_refuted: utilities 0, 1000, 0; C75_nested_refuted: utility 8 in a nest of scale 1/128). In-range theorems carry _partial; the limits are proved for one row and for runs, exp being correctly rounded."
  },
  {
   "property": "C76",
   "status": "proved",
   "theorems": [
    "Cheval.C76_accuracy",
    "Cheval.C76_in_range",
    "Cheval.C76_run",
    "Cheval.C76_stored",
    "Cheval.C76_utilities",
    "Cheval.C76_flat",
    "Cheval.C76_nested"
   ],
   "note": "float32 exp, double sums, as Numba types the loop for float32 utilities; exp correctly rounded to binary32. The sums written to the float32 table: added in binary64, converted to binary32 (NumExpr with casting='same_kind'). Nested models convert to float64 first (core.py:168), so C76_nested is over binary64 arithmetic."
  },
  {
   "property": "C77",
   "status": "partial",
   "theorems": [
    "Cheval.C77_top",
    "Cheval.C77_stuck",
    "Cheval.C77_moved",
    "Cheval.C77_refuted"
   ],
   "note": "Holds for add_choice and add_choices of the model (C77_top). Violated for nested choices: the exact effects are C77_stuck (a new nested choice: no run succeeds any more) and C77_moved (a nested choice added again: the columns of the kept table stay); C77_refuted is a history in which A.y gets the utilities of A.x."
  },
  {
   "property": "C78",
   "status": "partial",
   "theorems": [
    "Cheval.C78_items",
    "Cheval.C78_attributes",
    "Cheval.C78_missing",
    "Cheval.C78_aggregations",
    "Cheval.C78_listed",
    "Cheval.C78_only_partial",
    "Cheval.C78_group_refuted",
    "Cheval.C78_reachable",
    "Cheval.C78_shadowed_refuted"
   ],
   "note": "Dotted access is access by [] whenever no name of the chain is an attribute of the classes (C78_attributes, C78_aggregations, C78_missing, C78_reachable), and dir lists the identifiers (C78_listed). Violated for aliases like index (C78_shadowed_refuted) and for groups of a groupby (C78_group_refuted); C78_only_partial leaves groupby out."
  },
  {
   "property": "C79",
   "status": "partial",
   "theorems": [
    "Cheval.C79_exact_partial",
    "Cheval.C79_fill_partial",
    "Cheval.C79_fill_linked_partial",
    "Cheval.C79_aggregated_partial",
    "Cheval.C79_numbers_refuted"
   ],
   "note": "infer_dtype and the built-in fills; for which dtypes the property holds is settled by an equivalence over all of them (C79_exact_partial), carried to lookups and aggregations in any safe history (C79_fill_partial, C79_fill_linked_partial, C79_aggregated_partial). Violated for nullable numbers and numbers stored as objects, in every state (C79_numbers_refuted)."
  },
  {
   "property": "C80",
   "status": "partial",
   "theorems": [
    "Cheval.C80_order",
    "Cheval.C80_run_own",
    "Cheval.C80_run_cross_partial",
    "Cheval.C80_translation",
    "Cheval.C80_exchange",
    "Cheval.C80_odds",
    "Cheval.C80_own",
    "Cheval.C80_cross_partial",
    "Cheval.C80_cross_unscaled",
    "Cheval.C80_cross_two_levels",
    "Cheval.C80_reorder",
    "Cheval.C80_cross_refuted"
   ],
   "note": "Everything but 'never raises others' holds for all trees (C80_translation, C80_exchange, C80_odds, C80_own, C80_reorder). That part holds where no nest around the choice has a larger scale than its own parent (C80_cross_partial), so with one level of nests (C80_cross_two_levels) or without scaling (C80_cross_unscaled), and is violated otherwise (C80_cross_refuted, for every tree with such nests). For whole calls of run_stochastic: C80_order (two histories that leave the same choices and scales, in any order, give the same table, label by label), C80_run_own, C80_run_cross_partial."
  },
  {
   "property": "C81",
   "status": "partial",
   "theorems": [
    "Cheval.C81_out",
    "Cheval.C81_length",
    "Cheval.C81_length_partial",
    "Cheval.C81_column",
    "Cheval.C81_local_refuted",
    "Cheval.C81_one_row_refuted",
    "Cheval.C81_no_column"
   ],
   "note": "NumPy's conversion into the Series is a parameter (StoreIn) that only has to keep the length of the array. C81_out is an equation with evaluate, so everything proved about evaluate (C51) carries over; C81_column relates two histories of frames. Missing lengths: C81_local_refuted and C81_one_row_refuted show that out is overwritten before the ValueError."
  },
  {
   "property": "C82",
   "status": "proved",
   "theorems": [
    "Cheval.C82_slope",
    "Cheval.C82_slope_unscaled",
    "Cheval.C82_monotone",
    "Cheval.C82_translation",
    "Cheval.C82_multinomial",
    "Cheval.C82_multinomial_translation",
    "Cheval.C82_gain",
    "Cheval.C82_run_nested_gain",
    "Cheval.C82_run_monotone",
    "Cheval.C82_run_translation",
    "Cheval.C82_run_slope",
    "Cheval.C82_run_slope_unscaled",
    "Cheval.C82_run_gain",
    "Cheval.C82_run_flat_monotone",
    "Cheval.C82_run_flat_translation"
   ],
   "note": "Exact arithmetic (XR). Slope, constant and monotonicity are stated for one row, for all trees (C82_slope, C82_slope_unscaled, C82_translation, C82_monotone) and for one level (C82_multinomial, C82_multinomial_translation); whole calls of run_stochastic: C82_run_gain, C82_run_flat_monotone, C82_run_flat_translation (one level), C82_run_monotone, C82_run_translation, C82_run_slope, C82_run_slope_unscaled, C82_run_nested_gain (nested models); gains on trees: C82_gain."
  }
 ]
}