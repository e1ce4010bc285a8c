{"id": "C01", "title": "A single draw selects the choice whose cumulative-probability interval contains it", "statement": "Sampling one choice from a row of probabilities p with draw r always returns a valid position, and returns position i exactly when p_0+...+p_{i-1} < max(r, tiny) <= p_0+...+p_i; a draw above the total of all probabilities returns the last position.", "quantifier": "every probability row of any length >= 1 with non-negative entries, every draw", "why_tests_cant": "the boundary cases (draw exactly on a cumulative sum, runs of zeros, draw above the total) are a continuum of inputs", "anchors": ["cheval/core.py:sample_once"]}
{"id": "C02", "title": "Multi-draw (binary search) sampling agrees with single-draw sampling", "statement": "For the same probability row and the same uniform draw, the choice returned by the multi-draw path (cumulative sum + binary search) equals the choice returned by the single-draw path (sequential scan).", "quantifier": "every row of non-negative probabilities of any length >= 1, every draw >= the smallest positive normal double, and for an n-draw request every one of the n draws; in exact and in rounded arithmetic", "why_tests_cant": "the search takes a different path for every length and draw; the shipped test compares one 7-entry row", "anchors": ["cheval/core.py:logarithmic_search", "cheval/core.py:nbf_cumsum", "cheval/core.py:sample_multi", "cheval/core.py:sample_once"]}
{"id": "C03", "title": "A choice with zero probability is never sampled", "statement": "When the draw does not exceed the total of the probabilities, the sampled choice (single- or multi-draw) has strictly positive probability. (Unconditionally, for floating-point totals below the draw, this fails: the last choice is returned even if its probability is 0.)", "quantifier": "every probability row, every draw in (0, 1], both sampling paths", "why_tests_cant": "a violation needs a draw inside a gap of width 1e-16; random tests do not hit it", "anchors": ["cheval/core.py:sample_once", "cheval/core.py:logarithmic_search"]}
{"id": "C04", "title": "Sampling frequencies equal the probabilities", "statement": "If the probabilities of a row sum to 1 and the draw is uniform on (0,1], the probability (Lebesgue measure of the set of draws) that choice i is selected is exactly p_i, up to the clamping of draws below the smallest normal double; and for non-negative weights of any positive total, choice i is selected with probability w_i over the total.", "quantifier": "every probability row summing to 1, every choice", "why_tests_cant": "a statistical test can only bound the error for one row and a finite number of draws", "anchors": ["cheval/core.py:sample_once", "cheval/core.py:logarithmic_search"]}
{"id": "C05", "title": "Multinomial probabilities form a distribution equal to exp(u_i)/sum exp(u_j)", "statement": "For utilities that are finite or -inf, with at least one finite, run_stochastic on a one-level model returns for each choice p_i = exp(u_i)/sum_j exp(u_j), each in [0,1], total exactly 1, together with logsum term sum_j exp(u_j) and per-choice terms exp(u_i); p_i = 0 exactly when u_i = -inf.", "quantifier": "every utility row of any length", "why_tests_cant": "real-valued inputs, any number of choices", "anchors": ["cheval/core.py:multinomial_probabilities", "cheval/core.py:worker_multinomial_probabilities", "cheval/model.py:ChoiceModel.run_stochastic"]}
{"id": "C06", "title": "Infeasible multinomial rows are reported, or yield zeros when the check is disabled", "statement": "With check_infeasible=True a row raises UtilityBoundsError if and only if every utility in it is -inf; with check_infeasible=False such a row yields probability 0 for every choice and logsum 0, and feasible rows are unaffected by the flag.", "quantifier": "every row of utilities that are finite or -inf, both values of the flag", "why_tests_cant": "all lengths and all placements of -inf", "anchors": ["cheval/core.py:multinomial_probabilities"]}
{"id": "C07", "title": "Multinomial probabilities obey the logit laws", "statement": "Adding the same constant to all utilities leaves all probabilities unchanged; the odds p_i/p_j of two available choices equal exp(u_i-u_j) whatever the other choices are; raising one utility never lowers that choice's probability and never raises another's; reordering the choices reorders the probabilities the same way.", "quantifier": "every utility row, every constant, every pair of choices, every permutation of choices", "why_tests_cant": "algebraic laws over real inputs", "anchors": ["cheval/core.py:multinomial_probabilities"]}
{"id": "C08", "title": "Nested logit probabilities are zero on nests and sum to 1 over elemental choices", "statement": "For every well-formed choice tree of any depth and width, utilities finite or -inf with at least one reachable elemental choice, the returned probabilities are >= 0, are exactly 0 for every node that has children, and sum to exactly 1 over the nodes without children.", "quantifier": "every tree shape (any number of levels and nodes, in any insertion order in which the API can create it), every utility row, every logsum scale in (0,1], both values of scale_utilities", "why_tests_cant": "unbounded tree shapes and real inputs; the shipped test checks one 8-node tree", "anchors": ["cheval/core.py:nested_probabilities", "cheval/model.py:ChoiceModel._flatten"]}
{"id": "C09", "title": "Nested logit probabilities equal the textbook recursion", "statement": "Every elemental choice's probability is the product, over it and its ancestors a, of term(a) / sum of term over a's siblings (including a), where term(leaf) = exp(u/theta_parent), term(nest) = exp(u/theta_parent) * (sum of its children's terms)^(theta_nest/theta_parent), theta_parent = 1 for top-level nodes or when scale_utilities=False; the returned top logsum is the sum of the top-level terms and the returned nested logsum table is exactly term(.).", "quantifier": "every tree shape, every utility row (finite or -inf), every scale, both values of scale_utilities", "why_tests_cant": "the array algorithm interleaves levels with in-place overwrites; only a proof covers all shapes", "anchors": ["cheval/core.py:nested_probabilities"]}
{"id": "C10", "title": "Unavailable nests are switched off and infeasibility is detected exactly", "statement": "A node whose own utility, or an ancestor's, is -inf gets probability 0, and so does every nest all of whose elemental choices are unavailable; with check_infeasible=True the row raises UtilityBoundsError if and only if no elemental choice is available (itself and all its ancestors having finite utility); with the check off such a row yields probability 0 everywhere. Choices in the other nests keep the probabilities they would have if the unavailable nest did not compete.", "quantifier": "every tree shape, every placement of -inf, both flags", "why_tests_cant": "all placements of -inf over unbounded trees, including log(0) intermediate values", "anchors": ["cheval/core.py:nested_probabilities"]}
{"id": "C11", "title": "A nested model with unit scales and zero nest utilities is a multinomial model", "statement": "If all logsum scales are 1 and the utilities of all nests are 0, the probability of every elemental choice equals exp(u_i)/sum over elemental choices of exp(u_j), and the top logsum equals that sum.", "quantifier": "every tree shape, every elemental utility row, both values of scale_utilities", "why_tests_cant": "relates two algorithms over unbounded inputs", "anchors": ["cheval/core.py:nested_probabilities", "cheval/core.py:multinomial_probabilities"]}
{"id": "C12", "title": "Results do not depend on the number of threads or the schedule", "statement": "run_stochastic and run_discrete compute rows in a parallel loop; whatever the order and interleaving in which the row iterations' writes happen, the returned tables are the same, and row i of the result depends only on row i of the utilities and the i-th draw (or i-th seed).", "quantifier": "every interleaving of the per-row writes, every number of rows, every worker function", "why_tests_cant": "schedules cannot be enumerated by running", "anchors": ["cheval/core.py:worker_multinomial_sample", "cheval/core.py:worker_multinomial_probabilities", "cheval/core.py:worker_nested_sample", "cheval/core.py:worker_nested_probabilities"]}
{"id": "C13", "title": "Adding a partial utility table adds each cell exactly once at its labelled position, under every schedule", "statement": "add_partial_utilities(table) increases the cached utility of (unit, choice) by table[unit, choice] for labels present in the table and leaves every other cell unchanged, whatever the parallel schedule; labels not in the model are rejected with no cell changed. If a label occurs twice in the table, some schedule loses an update.", "quantifier": "every table whose row and column labels are distinct and a subset of the model's, all four index/no-index combinations, every interleaving of the read and write steps", "why_tests_cant": "data races depend on the schedule", "anchors": ["cheval/core.py:fast_indexed_add", "cheval/core.py:_fast_indexed_add_i_i", "cheval/model.py:ChoiceModel.add_partial_utilities"]}
{"id": "C14", "title": "Probabilities stay within [0,1] in rounded arithmetic", "statement": "With any monotone rounding of +, *, / that represents 0 and 1 and any non-negative exp, and no overflow, every returned multinomial or nested probability lies in [0,1], a choice with utility -inf has probability exactly 0, and cumulative sums of a row are non-decreasing.", "quantifier": "every rounding function with those properties (double precision included), every utility row", "why_tests_cant": "rounding errors depend on every bit of every input", "anchors": ["cheval/core.py:multinomial_probabilities", "cheval/core.py:nested_probabilities", "cheval/core.py:nbf_cumsum"]}
{"id": "C15", "title": "Choice identifiers are unique and ordered by insertion", "statement": "After any sequence of successful add_choice/add_choices calls (top-level or nested) that does not reuse a (nest, name) pair, `choices` lists each created node exactly once, in the order of creation, with pairwise distinct identifiers: the path of names from the root, padded with '.' to the model's depth; the columns of elemental_choices are exactly the nodes never given children, in the same order.", "quantifier": "every sequence of add_choice calls on the model and on any previously returned node", "why_tests_cant": "histories are unbounded; identifiers are built by string joining and tuple slicing whose injectivity needs proof", "anchors": ["cheval/model.py:ChoiceModel.add_choice", "cheval/model.py:ChoiceModel.add_choices", "cheval/model.py:ChoiceModel.choices", "cheval/model.py:ChoiceModel.elemental_choices", "cheval/api.py:ChoiceNode.nested_id", "cheval/api.py:ChoiceNode.full_name"]}
{"id": "C16", "title": "The choice tree stays consistent and flattens faithfully", "statement": "After any such sequence, each node's level is its parent's level + 1 (1 at the top), every node's parent is in the model and lists it as a child, `depth` is the maximum level, and the flattened arrays used for the computation hold, for each choice position, the position of its parent (-1 at top), its level - 1, its logsum scale (1 for leaves) and whether it has no children. Hence run_stochastic on any such validated nested model satisfies C08.", "quantifier": "every sequence of add_choice calls that does not reuse a (nest, name) pair", "why_tests_cant": "unbounded histories and tree shapes", "anchors": ["cheval/model.py:ChoiceModel._create_node", "cheval/model.py:ChoiceModel._flatten", "cheval/model.py:ChoiceModel.depth", "cheval/api.py:ChoiceNode.add_choice"]}
{"id": "C17", "title": "Re-adding a choice name replaces the choice", "statement": "add_choice with an existing name replaces the old choice: afterwards the model is as if the old choice (and what was nested in it) had never been added. (The code violates this when the replaced choice had children: they stay in the model, although their parent is now an elemental choice.)", "quantifier": "every history, every reused name", "why_tests_cant": "needs a history that nests under a choice and then re-adds it", "anchors": ["cheval/model.py:ChoiceModel._create_node"]}
{"id": "C18", "title": "A rejected add_choice leaves the model unchanged", "statement": "If add_choice raises (name containing '.', name '_', scale outside (0,1]) the set of choices is unchanged. (Violated when the name already exists: the old choice is removed before the new one is validated.)", "quantifier": "every history and every rejected call", "why_tests_cant": "crash point inside a mutator", "anchors": ["cheval/model.py:ChoiceModel._create_node", "cheval/api.py:ChoiceNode.__init__"]}
{"id": "C19", "title": "A validated tree has at least two top choices and no single-child nest, and a validated model can be flattened", "statement": "validate() raises ModelNotReadyError for the tree if and only if there are fewer than two top-level choices or some node has exactly one child.", "quantifier": "every history of tree operations", "why_tests_cant": "unbounded histories", "anchors": ["cheval/model.py:ChoiceModel.validate"]}
{"id": "C20", "title": "Results are labelled with elemental choices only", "statement": "run_discrete returns for every decision unit and draw the label of a node without children, and with astype='index' the position whose label is returned by the other modes; run_stochastic's table for a nested model has exactly the elemental choices as columns, each with its own probability, and its rows sum to 1.", "quantifier": "every validated model, every utility table, every draw not above the row total", "why_tests_cant": "needs the composition of flattening, probability computation, sampling and label lookup over all trees", "anchors": ["cheval/model.py:ChoiceModel._convert_result", "cheval/model.py:ChoiceModel._build_nested_stochastic_frame", "cheval/core.py:worker_nested_sample"]}
{"id": "C21", "title": "Expression rewriting preserves meaning", "statement": "For every accepted utility expression whose unary minuses apply to numbers, to symbols that also stand elsewhere in the expression (or in another expression of the model) and to operations and calls on these, the expression actually evaluated ('not' -> '~', 'and'/'or' -> '&'/'|', chained comparisons -> conjunctions, NaN spellings -> NAN, attribute lookups, aggregations and dict literals -> substituted names bound to their data) has, cell by cell, the value of the written expression under Python's reading of these operators.", "quantifier": "every expression tree of any size, every binding of the symbols, every table lookup result", "why_tests_cant": "expressions are an infinite language; shipped parsing tests are commented out", "anchors": ["cheval/parsing/ast_transformer.py:ExpressionParser", "cheval/parsing/expressions.py:Expression.parse"]}
{"id": "C22", "title": "Every symbol an accepted expression needs is checked before evaluation", "statement": "Every variable occurring in the rewritten expression is either a reserved word, a recorded simple symbol or a recorded substitution, so validate() reports every undeclared or unassigned symbol. (Violated: symbols below a unary minus are neither recorded nor rewritten.)", "quantifier": "every accepted expression", "why_tests_cant": "infinite language", "anchors": ["cheval/parsing/ast_transformer.py:ExpressionParser.visit_unaryop", "cheval/model.py:ChoiceModel.validate"]}
{"id": "C23", "title": "A name is used either as a simple symbol or as a table, never both", "statement": "Across any history of accepted and rejected expressions (grouped or not), no name is recorded both as a simple and as a dotted symbol; an expression that would use a name in the other way is rejected with UnsupportedSyntaxError.", "quantifier": "every history of expression appends", "why_tests_cant": "unbounded histories with in-place shared sets", "anchors": ["cheval/api.py:ExpressionGroup.append", "cheval/parsing/ast_transformer.py:ExpressionParser.visit_name", "cheval/parsing/ast_transformer.py:ExpressionParser.visit_attribute"]}
{"id": "C24", "title": "A rejected expression leaves the model unchanged", "statement": "If appending an expression raises, the recorded expressions and the set of symbols required by validate() are unchanged. (The expressions are; the required symbols are not: names visited before the error stay recorded.)", "quantifier": "every expression group state, every rejected expression", "why_tests_cant": "crash point inside parsing", "anchors": ["cheval/api.py:ExpressionGroup.append"]}
{"id": "C25", "title": "Unsupported syntax is rejected", "statement": "An expression containing a conditional expression, subscript, comprehension, starred item, list/tuple display, an unknown top-level function, or an aggregation method outside the supported list (outside unary minus, aggregation arguments and keyword arguments) is rejected.", "quantifier": "every expression tree", "why_tests_cant": "infinite language", "anchors": ["cheval/parsing/ast_transformer.py:ExpressionParser.visit", "cheval/parsing/ast_transformer.py:_UNSUPPORTED_NODES"]}
{"id": "C26", "title": "Different table lookups in one expression never share data", "statement": "Distinct dotted lookups of an expression are given distinct substitution names. (Violated: the 11th lookup on table `a` and the 1st lookup on table `a1` both become `__sub_a10`.)", "quantifier": "every expression", "why_tests_cant": "needs at least eleven lookups on one table and a specially named second table", "anchors": ["cheval/parsing/expr_items.py:ChainedSymbol._make_sub"]}
{"id": "C27", "title": "A choice filter confines an expression to one choice", "statement": "'expr @ a.b' evaluates expr and adds it to the utilities of exactly the choice a.b; all other cells are unchanged; more than one '@' is rejected; a filter naming no choice of the model raises KeyError (AssertionError if it has more parts than the tree has levels).", "quantifier": "every expression text, every filter text, every tree", "why_tests_cant": "string splitting over all texts; all trees", "anchors": ["cheval/parsing/expressions.py:_split_filter", "cheval/model.py:ChoiceModel._make_column_mask", "cheval/model.py:ChoiceModel._kernel_eval"]}
{"id": "C28", "title": "Dict literals put each value on the addressed choices only", "statement": "{k: v, ...} denotes the row that is v at the choice addressed by k ('A.B' = that node only, 'A._' = all nodes below A but not A itself), 0 elsewhere; keys naming no choice raise. The last applicable entry wins. (The order matters more than expected: a later 'A._' resets an earlier value given for 'A' to 0.)", "quantifier": "every literal, every tree", "why_tests_cant": "all key patterns over all trees", "anchors": ["cheval/parsing/expressions.py:Expression._insert_dict_val", "cheval/parsing/expressions.py:Expression._prepare_dict_literals", "cheval/parsing/ast_transformer.py:ExpressionParser.visit_dict"]}
{"id": "C29", "title": "Dict literals are accepted in utility expressions and rejected elsewhere", "statement": "Dict literals are accepted when appended to a model and rejected by LinkedDataFrame.evaluate, as documented. (The mode check is inverted: they are rejected only in mode UTILITIES, which no caller passes.)", "quantifier": "every expression with a dict literal, every mode", "why_tests_cant": "infinite language", "anchors": ["cheval/parsing/ast_transformer.py:ExpressionParser.visit_dict", "cheval/ldf/api.py:LinkedDataFrame.evaluate"]}
{"id": "C30", "title": "validate() guarantees that evaluation finds every recorded symbol", "statement": "If validate(group=g) succeeds then every simple and dotted symbol recorded by the expressions to be evaluated is declared and assigned, so evaluation raises neither KeyError nor ModelNotReadyError for a recorded symbol; it raises ModelNotReadyError naming a symbol iff one is undeclared or unassigned.", "quantifier": "every model state reachable by any history of declarations, assignments, appends, copies and clears", "why_tests_cant": "unbounded histories", "anchors": ["cheval/model.py:ChoiceModel.validate", "cheval/model.py:ChoiceModel._evaluate_utilities"]}
{"id": "C31", "title": "Reserved words cannot be redefined", "statement": "declare_number/vector/table/matrix reject NAN, OUT and NEG_INF, so no reachable scope ever binds them and expressions always see nan, the utilities so far and -inf under these names.", "quantifier": "every history of declarations", "why_tests_cant": "unbounded histories", "anchors": ["cheval/model.py:ChoiceModel._check_symbol_name", "cheval/parsing/constants.py:RESERVED_WORDS"]}
{"id": "C32", "title": "Assigned data is aligned by label", "statement": "A Series or DataFrame is accepted by a vector or table symbol only if its labels equal the decision units (orientation 0) or choices (orientation 1) in the same order; an array only if its length matches; then the value seen by an expression at (unit, choice) is the one labelled by that unit or choice. A rejected assignment keeps the previous data.", "quantifier": "every data object, every model", "why_tests_cant": "all labels and lengths", "anchors": ["cheval/api.py:VectorSymbol.assign", "cheval/api.py:TableSymbol.assign", "cheval/api.py:NumberSymbol.assign"]}
{"id": "C33", "title": "A matrix symbol is expanded by label with the fill value", "statement": "Assigning a DataFrame whose rows match and whose columns are a subset of the choices (or columns match and rows are a subset of the units), in any order, stores at (unit, choice) the DataFrame's value for these labels and the fill value elsewhere; unknown labels are rejected; orientation=1 does the same for the transpose. (The fill value is first converted to the type of the data, so e.g. 0.5 becomes 0 for integer data. When rows and columns both need expanding the code raises instead, although both reindex flags are True, except for one-row data.)", "quantifier": "every DataFrame with distinct labels, every orientation and flag combination", "why_tests_cant": "all label subsets and orders", "anchors": ["cheval/api.py:MatrixSymbol.assign"]}
{"id": "C34", "title": "Changing the decision units discards unit-dependent data", "statement": "After assigning new decision units every vector, table and matrix symbol is unassigned, numbers keep their value, and utilities start from zero. (The last part is violated: the cached utility table survives.)", "quantifier": "every model state", "why_tests_cant": "unbounded histories", "anchors": ["cheval/model.py:ChoiceModel.decision_units"]}
{"id": "C35", "title": "Utilities are the sum of the expressions", "statement": "On a model with no cached utilities, the utility table computed by a run is, for each cell, the sum over all expressions applying to that cell of their values there; for expressions not mentioning OUT the order of expressions is irrelevant in exact arithmetic (with rounding: C73).", "quantifier": "every set of expressions, every assignment of symbols, every permutation of expressions", "why_tests_cant": "unbounded expression lists", "anchors": ["cheval/model.py:ChoiceModel._evaluate_utilities", "cheval/model.py:ChoiceModel._kernel_eval"]}
{"id": "C36", "title": "Running a model twice gives the same result", "statement": "Calling run_stochastic(clear_scope=False) twice in a row gives the same table. (Violated: expressions are added in place to the cached table, so the second run uses doubled utilities.)", "quantifier": "every model", "why_tests_cant": "the shipped tests never run a model", "anchors": ["cheval/model.py:ChoiceModel._partial_utilities", "cheval/model.py:ChoiceModel._evaluate_utilities"]}
{"id": "C37", "title": "NaN utilities are always reported", "statement": "A run raises UtilityBoundsError if and only if some cell of the final utility table is NaN; otherwise probabilities are computed. A failed run leaves the model usable. (The last part is violated: the NaN cells stay in the cached table.)", "quantifier": "every set of expressions and data", "why_tests_cant": "all placements of NaN", "anchors": ["cheval/model.py:ChoiceModel._evaluate_utilities"]}
{"id": "C38", "title": "Pre-evaluating a group does not change the result", "statement": "preval(g) followed by a run of the remaining expressions yields the same utilities as one run of all expressions, when no expression mentions OUT.", "quantifier": "every model without cached utilities, every group", "why_tests_cant": "unbounded expression lists", "anchors": ["cheval/model.py:ChoiceModel.preval", "cheval/api.py:ExpressionGroup.drop_group"]}
{"id": "C39", "title": "preval's scope clean-up keeps the symbols other expressions need", "statement": "After preval(g, cleanup_scope=True) every symbol used by the remaining expressions is still declared. (Holds on a model that has not been copied, where clean-up removes nothing; violated on a copied model: symbols shared with another group are removed.)", "quantifier": "every model, every group structure", "why_tests_cant": "unbounded expression lists and histories", "anchors": ["cheval/model.py:ChoiceModel.preval", "cheval/api.py:ExpressionGroup.copy"]}
{"id": "C40", "title": "Copies are isolated", "statement": "After c = m.copy(...), operations on the scope, expressions, decision units, top-level choices or cached utilities of c do not change m, and vice versa; c has the decision units, declared symbols, assigned data, expressions and cached utilities of m selected by the flags. (Adding a nested choice through a node handle obtained from m changes what both models see.)", "quantifier": "every model state, every flag combination, every later history on either side", "why_tests_cant": "unbounded histories; aliasing", "anchors": ["cheval/model.py:ChoiceModel.copy", "cheval/api.py:ExpressionGroup.copy", "cheval/api.py:AbstractSymbol.copy"]}
{"id": "C41", "title": "copy_subset commutes with evaluation", "statement": "The utilities (hence probabilities) computed by m.copy_subset(mask) are those computed by m restricted to the masked decision units.", "quantifier": "every model with assigned symbols, every boolean mask, every list of expressions", "why_tests_cant": "all masks and expression lists", "anchors": ["cheval/model.py:ChoiceModel.copy_subset", "cheval/api.py:VectorSymbol.copy", "cheval/api.py:MatrixSymbol.copy", "cheval/api.py:TableSymbol.copy"]}
{"id": "C42", "title": "A link lookup returns the matching row's value, or the fill value", "statement": "For a link that needs no aggregation, frame.link.column[i] is the value of that column in the row of the target whose key equals row i's key, and the fill value when there is none; the result is indexed like the calling frame. (If the target has no rows at all, the lookup raises instead of filling.)", "quantifier": "every pair of frames, every key columns/levels, every placement of missing keys", "why_tests_cant": "all key multisets and orders", "anchors": ["cheval/ldf/api.py:_LinkMeta._make_indexer", "cheval/ldf/api.py:LinkedDataFrame._BaseNode._resolve_history", "cheval/ldf/api.py:LinkedDataFrame._LinkNode.__getitem__"]}
{"id": "C43", "title": "Chained lookups compose", "statement": "a.l1.l2...lk.column[i] is obtained by following the matching rows link after link; if any step has no match the result is the fill value of the final column.", "quantifier": "every chain length, every frames", "why_tests_cant": "unbounded chains", "anchors": ["cheval/ldf/api.py:LinkedDataFrame._LinkNode.__getitem__", "cheval/ldf/api.py:LinkedDataFrame._BaseNode._resolve_history"]}
{"id": "C44", "title": "The aggregation requirement is decided exactly and many-to-many links are rejected without effect", "statement": "link_to returns YES iff the keys of this frame are unique and the target's are not; raises if neither is unique; a raising link_to leaves all existing links as they were.", "quantifier": "every pair of frames and keys", "why_tests_cant": "all key multisets", "anchors": ["cheval/ldf/api.py:_LinkMeta._determine_aggregation", "cheval/ldf/api.py:LinkedDataFrame.link_to"]}
{"id": "C45", "title": "An aggregated lookup reduces exactly the matching rows", "statement": "For an aggregated link, frame.link.f(expr)[i] is f applied to the expression values, in order, of the target rows whose key equals row i's key, and the fill value (int_fill for integer/boolean data) when there are none. (Violated when the target's keys contain NaN: every group is shifted by one.)", "quantifier": "every pair of frames, every reduction f", "why_tests_cant": "all key multisets", "anchors": ["cheval/ldf/api.py:LinkedDataFrame._LeafAggregation._Aggregator.__call__", "cheval/ldf/api.py:_LinkMeta._make_indexer"]}
{"id": "C46", "title": "Slicing commutes with link lookups", "statement": "For row selections by mask, label list, position or slice, frame[slice].link.column == frame.link.column[slice], also for repeated slicing and after earlier lookups cached the missing rows; likewise evaluate() on a selection of the rows equals the selection of the values of evaluate() on the whole frame, for expressions computed row by row.", "quantifier": "every frame, every selection, every sequence of selections and lookups", "why_tests_cant": "all selections, all sequences", "anchors": ["cheval/ldf/api.py:LinkedDataFrame._take_with_is_copy", "cheval/ldf/api.py:LinkedDataFrame._slice", "cheval/ldf/api.py:LinkedDataFrame._reindex_with_indexers", "cheval/ldf/api.py:_LinkMeta.copy"]}
{"id": "C47", "title": "Row operations that are not overridden keep links correct", "statement": "Any pandas operation that returns a re-ordered or reduced LinkedDataFrame either keeps link lookups aligned with the rows or drops the link. (Violated: operations that only pass through __finalize__ keep the link but recompute it against the original frame; reindexing to new labels links the new rows to the last row's target.)", "quantifier": "every row permutation or reindexing", "why_tests_cant": "depends on the data order", "anchors": ["cheval/ldf/api.py:LinkedDataFrame.__finalize__", "cheval/ldf/api.py:_LinkMeta.copy_meta"]}
{"id": "C48", "title": "Lazily computed links equal precomputed links", "statement": "link_to(precompute=False) followed by any lookups gives the same results as precompute=True. (Violated for aggregated links: the first aggregation is performed before the grouping is computed and fails.)", "quantifier": "every pair of frames", "why_tests_cant": "all key multisets", "anchors": ["cheval/ldf/api.py:_LinkMeta.indexer_and_missing", "cheval/ldf/api.py:LinkedDataFrame._LeafAggregation._Aggregator.__call__"]}
{"id": "C49", "title": "compute_indexers(refresh=True) brings links up to date", "statement": "After key columns were changed, compute_indexers() makes lookups reflect the new keys. (Violated after an earlier lookup: the cached list of missing rows is not refreshed.)", "quantifier": "every frame, every change of key columns", "why_tests_cant": "needs a history lookup-change-refresh-lookup", "anchors": ["cheval/ldf/api.py:_LinkMeta.precompute", "cheval/ldf/api.py:LinkedDataFrame.compute_indexers"]}
{"id": "C50", "title": "Fill value precedence", "statement": "The fill value of a lookup ending in a LinkedDataFrame column is the column fill if set, else the instance default for the column's type, else the documented default; for a plain DataFrame target the class-level default; set/reset affect exactly the named types. Class-level defaults apply to new LinkedDataFrames as documented. (The last part is violated: instances start from the built-in defaults.)", "quantifier": "every sequence of set_column_fill / set_fill_defaults / reset_fill_defaults calls", "why_tests_cant": "unbounded histories", "anchors": ["cheval/ldf/missing_data.py:SeriesFillManager", "cheval/ldf/api.py:LinkedDataFrame._get_fill"]}
{"id": "C51", "title": "Evaluation of a row-wise expression on a LinkedDataFrame reads columns, links and locals as documented", "statement": "evaluate(expr)[i] is the value of expr with each simple name bound to the column's value in row i (or to local_dict when there is no such column) and each dotted name bound to the link lookup for row i.", "quantifier": "every expression, frame and local_dict", "why_tests_cant": "infinite language", "anchors": ["cheval/ldf/api.py:LinkedDataFrame.evaluate"]}
{"id": "C52", "title": "Aggregations over a table's link can be used in utility expressions", "statement": "An expression table.link.f(expr) in a model evaluates to the aggregated lookup on the assigned LinkedDataFrame. (Violated for one-hop links: the aggregation is ignored and the link object itself is used as data, which raises.)", "quantifier": "every table with links, every reduction", "why_tests_cant": "shipped test for this is a stub that fails", "anchors": ["cheval/api.py:TableSymbol._get"]}
{"id": "C53", "title": "run_discrete is reproducible and validates its arguments", "statement": "With the same model state, seed and n_draws, run_discrete returns the same choices; n_draws < 1 is rejected; precision accepts only 4 and 8 and a rejected value keeps the old one; n_draws >= 1 gives exactly n_draws columns.", "quantifier": "every model state, seed, n_draws, thread count", "why_tests_cant": "schedules and histories", "anchors": ["cheval/model.py:ChoiceModel.run_discrete", "cheval/model.py:ChoiceModel.precision"]}
{"id": "C54", "title": "add_choices is add_choice on each name in turn", "statement": "add_choices(names, scales) leaves the model as if add_choice(name, scale) had been called for each name in order, stopping at the first rejected one, and returns the new choices by name; without scales every scale is 1. (Violated for a one-shot iterator without scales: nothing is added.)", "quantifier": "every model state, every list of names and scales", "why_tests_cant": "needs every state and every list, including rejected elements in the middle", "anchors": ["cheval/model.py:ChoiceModel.add_choices", "cheval/api.py:ChoiceNode.add_choice"]}
{"id": "C55", "title": "Data over the choices is discarded when the choices change", "statement": "After add_choice (or a nested add_choice) changed the list of choices, symbols assigned before over the choices are not silently read for other choices: the data is discarded or realigned. (Violated: re-adding a choice moves its column to the end while assigned vectors, tables and matrices keep the old order.)", "quantifier": "every history mixing assignments and add_choice", "why_tests_cant": "unbounded histories", "anchors": ["cheval/model.py:ChoiceModel.add_choice", "cheval/api.py:VectorSymbol.assign"]}
{"id": "C56", "title": "allow_links=False keeps LinkedDataFrames out", "statement": "A table symbol declared with allow_links=False rejects every LinkedDataFrame and accepts ordinary DataFrames. (Violated: the check is inverted.)", "quantifier": "every table declaration and every data frame", "why_tests_cant": "all data frames", "anchors": ["cheval/api.py:TableSymbol.assign"]}
{"id": "C57", "title": "Rounded multinomial probabilities sum to one", "statement": "In double precision, whatever exp returns, if the logsum returned is a finite positive number then the probabilities of a multinomial row of n choices are finite, not negative and sum to 1 within n * 2^-52.", "quantifier": "every row of utilities of up to 2^50 choices, every implementation of exp", "why_tests_cant": "rounding errors depend on every input; a test sees a few rows and compares with a guessed tolerance", "anchors": ["cheval/core.py:multinomial_probabilities"]}
{"id": "C58", "title": "Rounded multinomial probabilities are accurate", "statement": "In double precision with an exp of relative error e <= 1/100, every probability of a multinomial row of n choices with a finite positive logsum and some utility >= -620 differs from exp(u_i)/sum exp(u_j) by at most 3e + n * 2^-52.", "quantifier": "every row of utilities of up to 2^50 choices, every exp with that accuracy", "why_tests_cant": "needs an error analysis over all inputs", "anchors": ["cheval/core.py:multinomial_probabilities"]}
{"id": "C59", "title": "Rounded draws follow the rounded probabilities", "statement": "In double precision, the share of the 2^53 equally likely uniform draws k/2^53 for which choice i is sampled differs from its probability by at most (2n+2) * 2^-52, for the single draw scan and for the binary search used for several draws; from utilities to draws the share is within 3e + (3n+2) * 2^-52 of the exact multinomial probability; both hold for whole calls of run_discrete, compared with the table of run_stochastic.", "quantifier": "every row of probabilities with the sum of C57, every choice", "why_tests_cant": "needs all 2^53 draws and all rows", "anchors": ["cheval/core.py:sample_once", "cheval/core.py:logarithmic_search", "cheval/core.py:sample_multi", "cheval/core.py:multinomial_probabilities"]}
{"id": "C60", "title": "Rounded nested logit probabilities sum to one", "statement": "In double precision, whatever exp and log return, if the overall logsum of a row is a finite positive number then the nested logit probabilities of a tree of n nodes are in [0, 1] and sum to 1 within n * 2^-51; the share of the 2^53 equally likely uniform draws giving choice i is within (3n+2) * 2^-52 of its probability; the same holds for whole calls of run_stochastic and run_discrete.", "quantifier": "every well-formed choice tree of up to 2^50 nodes, every depth, every row of utilities, every implementation of exp and log", "why_tests_cant": "rounding errors accumulate along every path of every tree; a test sees a few rows and compares with a guessed tolerance", "anchors": ["cheval/core.py:nested_probabilities", "cheval/core.py:sample_once", "cheval/model.py:ChoiceModel.run_stochastic"]}
{"id": "C61", "title": "link_to accepts exactly the well specified links", "statement": "link_to understands its arguments as documented (on/on_self/on_other name columns, levels/self_levels/other_levels name index levels, the common argument overrides, nothing given means the whole index) and returns exactly when no side is described both by columns and levels, every named column or level exists and can be read, both keys have the same number of parts and the keys of at least one side are unique; otherwise it raises and changes nothing, LinkageSpecificationError for contradictory arguments and for missing columns or levels.", "quantifier": "every history of frames and links, every combination of arguments", "why_tests_cant": "all argument combinations over all frames, including frames whose columns are hidden by links", "anchors": ["cheval/ldf/api.py:LinkedDataFrame.link_to", "cheval/ldf/api.py:_IndexMeta", "cheval/ldf/api.py:_LinkMeta.create"]}
{"id": "C62", "title": "Assigning model.expressions", "statement": "model.expressions = texts makes the texts the ungrouped expressions of the model, or raises and leaves the model as it was; everything else in the model stays as it is.", "quantifier": "every model, every list of texts, every parser", "why_tests_cant": "depends on which expressions were there before and on which text of the list is rejected", "anchors": ["cheval/model.py:ChoiceModel.expressions", "cheval/api.py:ExpressionGroup.append"]}
{"id": "C63", "title": "Sums of expression groups", "statement": "a + b of two expression groups is a new group with the ungrouped expressions of a and then b, and for each group name the expressions of that group in a and then in b; making it changes neither operand, and later calls on the sum, on a or on b change only the group they are made on.", "quantifier": "every history of new groups, appends, clears, drops, copies and sums", "why_tests_cant": "sharing between objects shows only after particular later calls", "anchors": ["cheval/api.py:ExpressionGroup.__add__", "cheval/api.py:ExpressionSubGroup.__add__", "cheval/api.py:ExpressionGroup.copy", "cheval/api.py:ExpressionGroup.append"]}
{"id": "C64", "title": "Link targets and link summaries", "statement": "get_link_target(name) returns the very frame given to the last successful link_to of that name on the frame, or on the frame it was derived from before the derivation, and raises KeyError if there was none. link_summary lists exactly these links, in the order in which their names came up, with the keys given to that call, the aggregation flag it returned, whether the target is a LinkedDataFrame, and the present shape of the target. 'preindexed' is what precompute asked for; compute_indexers and a successful lookup set it; only link_to and operations passing through __finalize__ alone give links without it; slices, groups and copies take it over.", "quantifier": "every history of creating, linking, deriving, looking up, changing and filling frames, errors caught", "why_tests_cant": "links are copied, replaced and cached by every operation on every frame; a test follows a few of the histories", "anchors": ["cheval/ldf/api.py:LinkedDataFrame.get_link_target", "cheval/ldf/api.py:LinkedDataFrame.link_summary", "cheval/ldf/api.py:_LinkMeta.copy", "cheval/ldf/api.py:_LinkMeta.copy_meta", "cheval/ldf/api.py:LinkedDataFrame.__finalize__"]}
{"id": "C65", "title": "Pivot tables see the named columns, lookups and expressions", "statement": "pivot_table(values, index, columns) of a linked frame returns pandas' pivot table, for the same arguments, of the DataFrame that has the frame's index and one column for every text in the arguments (a text alone, in a list or in a tuple): the column of that name or, if there is none, the expression evaluated on the frame; an error of one of the expressions is raised; the frame and its links are left as they were.", "quantifier": "every history of calls on linked frames, every argument made of None, texts, lists and tuples of texts", "why_tests_cant": "the texts range over all column names, lookups and expressions, and evaluations fill caches that later ones use", "anchors": ["cheval/ldf/api.py:LinkedDataFrame.pivot_table", "cheval/ldf/api.py:LinkedDataFrame._resolve_columns"]}
{"id": "C66", "title": "Assigned data are those of the time of the assignment", "statement": "After model[name].assign(data) was accepted, the symbol holds the values data had at that moment until the name is declared or assigned again, the decision units change or the scope is cleared: nothing the caller later does to the object (writing cells, sorting or re-indexing it in place) changes what evaluations see. A caller who never changes an object once it was assigned gets the same model as if the data were immutable values.", "quantifier": "every history of calls on the model and of the caller creating, overwriting and restructuring data objects, every kind of symbol and data", "why_tests_cant": "the effect of shared memory shows only if the caller changes the right object between assignment and evaluation", "anchors": ["cheval/api.py:VectorSymbol.assign", "cheval/api.py:TableSymbol.assign", "cheval/api.py:MatrixSymbol.assign", "cheval/utils.py:to_numpy", "cheval/utils.py:convert_series"]}
{"id": "C67", "title": "Columns reach expressions with their values", "statement": "A Series assigned to a vector, an attribute or lookup of a table, and a column or lookup used in evaluate reach the expression row by row: integers, floats and truth values unchanged, texts and text categories whole, so that comparing with a text finds exactly the rows with that text, missing integers as NaN. Columns that cannot be represented (missing texts, texts beyond ASCII, dates, time differences, other extension types) are rejected with an error; no column is accepted with changed values, and no column of texts or integers is refused merely for its length or dtype.", "quantifier": "every column: any number of rows, any integers, texts of any length, any categories and codes", "why_tests_cant": "depends on the longest text, on single cells (missing, large, non-ASCII, ending in NUL) and on dtype", "anchors": ["cheval/utils.py:convert_series", "cheval/api.py:VectorSymbol.assign", "cheval/api.py:TableSymbol._get", "cheval/ldf/api.py:LinkedDataFrame.evaluate"]}
{"id": "C68", "title": "debug_results shows how the utilities of one decision unit build up", "statement": "If debug_id is the label of a decision unit, then after a run (also one that ends because of NaN utilities) debug_results has one row per evaluated expression, in order and labelled with its text, one column per choice, and each row shows the utilities of that unit after that expression; the run otherwise behaves and returns exactly as without debug_id. preval of a group records the expressions of the group in the same way. A debug_id that is no decision unit raises KeyError and changes nothing; a model made by copy or copy_subset can be run like one without debug_id.", "quantifier": "every model, every list of expressions, every decision unit", "why_tests_cant": "every prefix of the expressions, every label of a unit", "anchors": ["cheval/model.py:ChoiceModel._evaluate_utilities", "cheval/model.py:ChoiceModel.debug_id", "cheval/model.py:ChoiceModel.debug_results", "cheval/model.py:ChoiceModel.preval", "cheval/model.py:ChoiceModel.copy_subset"]}
{"id": "C69", "title": "Handles keep describing their choices", "statement": "Every handle returned by add_choice, of the model or of another handle, is distinct from all others and describes its choice for good, whatever calls were made before and are made after, accepted or rejected: name, parent, level (1 at the top, one more than the parent's otherwise) and full_name (the parent's, a dot, the name) never change; logsum_scale is the value accepted last; children() yields, for each name used in the handle's own add_choice, the choice added last, in the order in which the names were first used, n_children and is_parent agree; max_level() is the level of the deepest choice found by following children(). In a model in which no nest with choices was replaced and no replacement was rejected, children() of a choice of the model are the choices of the model nested directly in it.", "quantifier": "every history of add_choice calls on the model and on handles and of assignments to logsum_scale, errors caught", "why_tests_cant": "handles outlive any number of later calls that replace, reject and rescale choices", "anchors": ["cheval/api.py:ChoiceNode", "cheval/api.py:ChoiceNode.full_name", "cheval/api.py:ChoiceNode.children", "cheval/api.py:ChoiceNode.max_level", "cheval/api.py:ChoiceNode.add_choice"]}
{"id": "C70", "title": "Draws come from the reported distribution", "statement": "On one model, with the same scale_utilities and infeasible-unit check, run_discrete and run_stochastic agree: either both raise the infeasible-utilities error, or both return, report the same top logsum for every decision unit, and every draw of run_discrete is the label of the column of run_stochastic's table (elemental choices only, in the table's own column order) at which the running total of the unit's probabilities first reaches the unit's random number. The number is the unit's own element of the seeded stream for a single draw, and the draw's element of the stream seeded by the unit's own integer for several; it does not depend on other units, threads or the result format. Over uniformly distributed numbers each column is drawn with exactly its reported probability.", "quantifier": "every clean choice tree with or without nests, every utility table with finite or -inf entries, every seed, number of draws, thread count, schedule and result format", "why_tests_cant": "it relates two different calls, for every table, random number and schedule", "anchors": ["cheval/model.py:ChoiceModel.run_discrete", "cheval/model.py:ChoiceModel.run_stochastic", "cheval/model.py:ChoiceModel._convert_result", "cheval/core.py:worker_nested_sample", "cheval/core.py:worker_nested_probabilities", "cheval/core.py:worker_multinomial_sample"]}
{"id": "C71", "title": "Stored utilities have the model's precision", "statement": "model.precision is the number of bytes of the stored utilities: whenever a model has stored utilities, each cell has the width that model.precision reports, whatever calls were made before.", "quantifier": "every history of calls on a model and its copies, errors caught", "why_tests_cant": "the width is fixed by one call and observed by others, with any calls in between", "anchors": ["cheval/model.py:ChoiceModel.precision", "cheval/model.py:ChoiceModel._partial_utilities"]}
{"id": "C72", "title": "Nested logit probabilities are accurate in double precision", "statement": "In IEEE double precision, with exp and log of relative error at most e: for a tree of n choices (nests included) on d levels with scales in (0,1], the smallest applied scale being s, utilities finite or -inf with exact logsum terms between exp(-M) and exp(M), M <= 600, and a finite returned logsum, every returned probability differs from the textbook nested logit probability of that elemental choice by at most d(4D + (4n+5)2^-53), where D = d((M+40)e + (3M+2n+50)2^-53)/s, as long as D <= 1/5; run_stochastic puts these probabilities under the labels of the elemental choices. Under these conditions the logsum is finite, and an error is raised exactly if the check is requested and no elemental choice is available together with all its nests.", "quantifier": "every tree, every table of double precision utilities and scales, every decision unit, every exp and log of the stated accuracy", "why_tests_cant": "rounding errors depend on every utility, on the depth and on the number of choices; small scales amplify them at each level", "anchors": ["cheval/core.py:nested_probabilities", "cheval/core.py:worker_nested_probabilities", "cheval/model.py:ChoiceModel.run_stochastic"]}
{"id": "C73", "title": "Utilities in double precision", "statement": "In IEEE double precision, if the utility a run computes for a decision unit and a choice is finite, then the values of all n expressions that apply to it are finite, and if none of them reads OUT the utility differs from the exact sum of its starting value and these values by at most n * 2^-52 times the sum of their absolute values (n <= 2^51). So running the same expressions in any other order changes a utility by at most n * 2^-51 times that sum; but the order can change it.", "quantifier": "every model, every list of expressions and every permutation of it, every table of double precision values, every decision unit and choice", "why_tests_cant": "rounding errors depend on every value and on the order of all the expressions", "anchors": ["cheval/model.py:ChoiceModel._evaluate_utilities"]}
{"id": "C74", "title": "Probabilities follow from the values of the expressions, in double precision", "statement": "From the values of the expressions to the reported probabilities in IEEE double precision: when run_stochastic returns, and the utilities of a decision unit are sums of values that are finite or -inf with summation errors at most delta (C73), each reported probability differs from the logit (or nested logit) probability computed in exact arithmetic from the exact sums of these values by at most the error of the probability computation (C58: 3e + n*2^-52; C72: d(4D + (4n+5)2^-53)) plus 4*delta without nests (delta <= 1/4), plus 4*d^2*delta/s with nests on d levels with applied scales at least s (4*d*delta <= s). In exact arithmetic, changing all utilities by at most delta changes every probability by no more than that.", "quantifier": "every model, tree, list of expressions, table of values, decision unit and choice", "why_tests_cant": "rounding errors depend on every value; small scales amplify them", "anchors": ["cheval/model.py:ChoiceModel.run_stochastic", "cheval/model.py:ChoiceModel._evaluate_utilities", "cheval/core.py:worker_multinomial_probabilities", "cheval/core.py:worker_nested_probabilities"]}
{"id": "C75", "title": "Finite utilities of any size give probabilities", "statement": "Whatever the size of a decision unit's finite utilities, run_stochastic gives it probabilities that are numbers in [0,1] summing to one, and run_discrete draws a choice that is not negligible. (Violated: the utilities are exponentiated without subtracting the largest one. In double precision a utility of 710 or more makes the logsum +inf and the probability of that choice NaN, and run_discrete silently draws the last choice; utilities all at or below -746 are reported as infeasible. In single precision the limits are 89 and -105. Between the limits the property holds. With nests the utility of a choice is first divided by the scale of its nest, so that with a scale of 1/128 a utility of 8 has this effect although the textbook probability is ordinary; with d levels, applied scales at least s and utilities at most B in absolute value, d(B + 34) <= 600 s and d(2n + 2500) <= 2^48 s, the property holds.)", "quantifier": "all lists of utilities in double or single precision, all models with and without nests, all runs, all generators", "why_tests_cant": "The limits depend on the sum of exponentials over any number of choices and on rounding; tests use small utilities, for which nothing shows.", "anchors": ["cheval/core.py:multinomial_probabilities", "cheval/core.py:multinomial_sample", "cheval/core.py:sample_multi", "cheval/core.py:nested_probabilities", "cheval/model.py:ChoiceModel.run_stochastic", "cheval/model.py:ChoiceModel.run_discrete"]}
{"id": "C76", "title": "Models of single precision are accurate to single precision", "statement": "For a model of precision 4 without nests, run_stochastic gives every decision unit whose utilities are at most 88, one of them at least -40, probabilities that differ from the exact logit probabilities of the stored utilities by at most 3 * 2^-24 + n * 2^-52, and if the stored utilities are within d of the exact ones, from the exact probabilities of those by 4d more. With or without nests, the stored utilities are within d = k (2^-22 A + 2^-149) of the exact sums of the values of the expressions (k values whose sizes add up to A), -inf exactly when one of them is, and with nests on L levels the probabilities differ from those of the exact nested logit by the double precision error of C72 plus 4 L^2 d / s, s being the smallest scale applied.", "quantifier": "all models without and with nests, all expressions with finite or -inf values, all utilities in the stated range, up to 2^30 choices (2^48 with nests)", "why_tests_cant": "The bound must hold for every list of single-precision utilities; tests compare a few values at a chosen tolerance.", "anchors": ["cheval/core.py:multinomial_probabilities", "cheval/core.py:worker_multinomial_probabilities", "cheval/model.py:ChoiceModel.run_stochastic", "cheval/model.py:ChoiceModel.precision"]}
{"id": "C77", "title": "Utilities stay with their choices when the choices change", "statement": "Utilities a model has kept (from a run, preval or add_partial_utilities) are never given to another choice: after choices are added or added again, each choice starts the next run either from its own utilities or from zero, and the run succeeds if the data fit the new choices. (Holds for add_choice and add_choices of the model, also if they are refused: every choice starts from zero. Violated for add_choice of a handle: a new nested choice makes every later run fail until the stored utilities are dropped, and adding a nested choice again moves it to the last column while the stored utilities stay, so that the choices after it get the utilities of others.)", "quantifier": "all models, all stored utilities, all trees and handles, all later calls", "why_tests_cant": "It relates a call on a handle to the columns of a table stored by an earlier call, for every tree and history.", "anchors": ["cheval/api.py:ChoiceNode.add_choice", "cheval/model.py:ChoiceModel.add_choice", "cheval/model.py:ChoiceModel.add_choices", "cheval/model.py:ChoiceModel._partial_utilities"]}
{"id": "C78", "title": "Links are attributes, and listed", "statement": "A link whose alias is an identifier can be read as an attribute of the frame: frame.l1.l2.column returns the very Series frame['l1']['l2']['column'] returns, frame.l1.func(arg) is the aggregation along the chain, a name that is not there is an AttributeError and never a KeyError, and dir(frame) lists exactly the aliases that are identifiers, for derived frames too. (Violated for aliases that are attributes of DataFrames, such as index or count, which link_to accepts and dir lists, and for the groups of a groupby, which list every alias.)", "quantifier": "all worlds of frames, all chains of names, all histories of calls", "why_tests_cant": "Access is resolved step by step through objects of different classes over arbitrarily long chains; which names are listed depends on the whole history of a frame.", "anchors": ["cheval/ldf/api.py:LinkedDataFrame.__getattr__", "cheval/ldf/api.py:LinkedDataFrame.__getitem__", "cheval/ldf/api.py:LinkedDataFrame.__dir__", "cheval/ldf/api.py:LinkedDataFrame._BaseNode.__getattr__", "cheval/ldf/api.py:LinkedDataFrame._LeafAggregation.__getattr__", "cheval/ldf/api.py:LinkedDataFrame._copy_links"]}
{"id": "C79", "title": "Columns are treated by the type of their values", "statement": "A looked-up cell without a partner holds the built-in fill for what the column holds (0 for integers, NaN for floats, False for truth values, '' for texts, NaN for categories, NaT for times, None for anything else), and exactly the columns that hold numbers or truth values can be summed, averaged and so on along a link, whatever pandas stores them in. (Holds exactly for NumPy numbers up to 64 bits, truth values, dates, categories, strings, object columns whose values are all texts, and those all of one of pandas' special classes such as dates or decimals. Violated for nullable integers, floats and truth values, longdouble, and numbers or truth values stored as objects - aggregating them raises RuntimeError, and missing cells get None - and for object columns that are empty, mixed or of plain objects, which are taken for texts.)", "quantifier": "all dtypes, all object columns, all histories of calls, all links", "why_tests_cant": "The test is a cascade over accessors and lists of dtypes; object columns have unboundedly many contents, and the effect shows in later lookups.", "anchors": ["cheval/ldf/missing_data.py:infer_dtype", "cheval/ldf/missing_data.py:SeriesFillManager.get_fill", "cheval/ldf/api.py:LinkedDataFrame._get_fill", "cheval/ldf/api.py:LinkedDataFrame._LeafAggregation"]}
{"id": "C80", "title": "Nested probabilities obey the nested logit laws", "statement": "Adding a constant to all top-level utilities changes no probability; a constant can be moved from all choices of a nest to the nest itself (times the nest's scale without scaling); the odds of two choices of the same nest are exp of their utility difference over the nest's scale, whatever else is in the model; raising the utility of a choice or nest never lowers the probability of the choices in it and never raises that of others; the order in which choices were added does not matter. (Others' probabilities are never raised if no nest has a larger scale than the nest it lies in, if there is one level of nests, or without scaling; violated for every tree with two choices in a nest that has a larger scale than the nest around it - accepted by add_choice - and a further choice in that one.)", "quantifier": "all trees, all scales, all utility rows, all constants, all histories of add_choice leaving the same choices", "why_tests_cant": "Algebraic laws of a recursion over trees of any shape, over the reals.", "anchors": ["cheval/core.py:nested_probabilities", "cheval/api.py:ChoiceNode.__init__"]}
{"id": "C81", "title": "evaluate(out=series) stores the values of evaluate in the series", "statement": "frame.evaluate(expression, out=series) with a Series of as many rows as the frame returns what evaluate without out returns, converted to the type of the Series, and the Series holds those values afterwards; if it raises, or the conversion is not allowed by allow_casting, the Series is as before. With out=frame[column], the frame is afterwards as after evaluating and then assigning the converted values to the column. With a Series of another length it raises and leaves the Series as it was. (The last is violated: an expression of constants and local scalars, or a frame with one row, fills the Series and then raises; it holds for expressions that read a column of a frame that has not exactly one row.)", "quantifier": "all expressions, frames, links, local names, types and lengths of the Series, all histories of calls", "why_tests_cant": "What is written before an error shows depends on the expression, the lengths and the point of failure; tests check one result of matching length.", "anchors": ["cheval/ldf/api.py:LinkedDataFrame.evaluate", "cheval/utils.py:to_numpy"]}
{"id": "C82", "title": "The logsum is the composite utility of the choices", "statement": "The logarithm of the logsum that run_stochastic reports for a decision unit grows by c if c is added to the utilities of all top-level choices, and never falls if the utility of a choice or nest is raised or it is made available. Its slope in the utility of an available elemental choice is the probability reported for it (with scale_utilities=True; without, the probability times the scales of all nests around it). Between two units, or two calls, of a model with one level that have the same choices available, it grows at least by the gains in utility weighted with the first probabilities and at most by the gains weighted with the second. With nests, raising the utility of an available elemental choice raises it by at least the probability before and at most the probability after, times the gain (without scale_utilities, times those scales).", "quantifier": "all trees, all scales, all utility rows, all constants and choices, all pairs of returned calls", "why_tests_cant": "Laws of a recursion over trees of any shape, with a derivative; tests compare single logsums with recorded numbers.", "anchors": ["cheval/core.py:multinomial_probabilities", "cheval/core.py:nested_probabilities", "cheval/core.py:worker_multinomial_probabilities", "cheval/core.py:worker_nested_probabilities", "cheval/model.py:ChoiceModel.run_stochastic"]}
