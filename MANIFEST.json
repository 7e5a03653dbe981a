{
 "claims": [
  {
   "property": "C01",
   "status": "proved",
   "theorems": [
    "Verif.LCM.lcm_rows",
    "Verif.LCM.lcm_exact"
   ],
   "note": ""
  },
  {
   "property": "C02",
   "status": "proved",
   "theorems": [
    "Verif.LCM.lcm_nodup"
   ],
   "note": ""
  },
  {
   "property": "C03",
   "status": "proved",
   "theorems": [
    "Verif.LCM.lcm_maxLength"
   ],
   "note": ""
  },
  {
   "property": "C04",
   "status": "proved",
   "theorems": [
    "Verif.LCM.lcmMax_rows",
    "Verif.LCM.lcmMax_exact",
    "Verif.LCM.lcmMax_nodup"
   ],
   "note": ""
  },
  {
   "property": "C05",
   "status": "proved",
   "theorems": [
    "Verif.LCM.lcm_order_independent"
   ],
   "note": ""
  },
  {
   "property": "C06",
   "status": "partial",
   "theorems": [
    "Verif.MinSupp.checkMinSupp_int",
    "Verif.MinSupp.checkMinSupp_float",
    "Verif.MinSupp.checkMinSupp_inf",
    "Verif.MinSupp.checkMinSupp_other",
    "Verif.MinSupp.checkMinSupp_nan_accepted",
    "Verif.MinSupp.threshold_spec",
    "Verif.MinSupp.checkGrowthRate_spec"
   ],
   "note": "Proved for integers, finite floats, infinities and other types. The code also accepts NaN (checkMinSupp_nan_accepted), which the property excludes."
  },
  {
   "property": "C07",
   "status": "proved",
   "theorems": [
    "Verif.Filter.filterMaximal_exact",
    "Verif.Filter.filterMaximal_sorted"
   ],
   "note": ""
  },
  {
   "property": "C08",
   "status": "proved",
   "theorems": [
    "Verif.Filter.filterMinimal_exact",
    "Verif.Filter.filterMinimal_sorted"
   ],
   "note": ""
  },
  {
   "property": "C09",
   "status": "partial",
   "theorems": [
    "Verif.Intersect.mem_intersect2d",
    "Verif.Intersect.intersect2d_sorted",
    "Verif.Intersect.intersect2d_partial",
    "Verif.Intersect.intersect2d_complete",
    "Verif.Intersect.intersect2d_loses"
   ],
   "note": "False for the code (intersect2d_loses). mem_intersect2d and intersect2d_partial say exactly what is returned; intersect2d_complete is the claim when first columns do not repeat."
  },
  {
   "property": "C10",
   "status": "proved",
   "theorems": [
    "Verif.Clique.bronKerbosch_correct"
   ],
   "note": ""
  },
  {
   "property": "C11",
   "status": "proved",
   "theorems": [
    "Verif.Clique.bronKerbosch3Plus_correct"
   ],
   "note": ""
  },
  {
   "property": "C12",
   "status": "proved",
   "theorems": [
    "Verif.Slim.history_lossless",
    "Verif.Slim.history_total",
    "Verif.Slim.fit_lossless"
   ],
   "note": "For every history of updates with new itemsets; C17 is about the others."
  },
  {
   "property": "C13",
   "status": "proved",
   "theorems": [
    "Verif.Slim.cover_rows",
    "Verif.Slim.cover_rows_tabular"
   ],
   "note": ""
  },
  {
   "property": "C14",
   "status": "proved",
   "theorems": [
    "Verif.Slim.fit_terminates",
    "Verif.Slim.fit_lossless",
    "Verif.Slim.accepted_decreases"
   ],
   "note": ""
  },
  {
   "property": "C15",
   "status": "proved",
   "theorems": [
    "Verif.Slim.prune_correct"
   ],
   "note": ""
  },
  {
   "property": "C16",
   "status": "partial",
   "theorems": [
    "Verif.Slim.reconstruct_partial",
    "Verif.Slim.reconstruct_exact",
    "Verif.Slim.reconstruct_loses_trailing"
   ],
   "note": "False for the code on trailing empty transactions (reconstruct_loses_trailing). reconstruct_partial states exactly what is returned for all inputs; reconstruct_exact is the claim when the last transaction is not empty."
  },
  {
   "property": "C17",
   "status": "partial",
   "theorems": [
    "Verif.Slim.update_existing_partial",
    "Verif.Slim.update_existing_exact_partial",
    "Verif.Slim.table_sorted",
    "Verif.Slim.update_twice_loses"
   ],
   "note": "False for the code (update_twice_loses). update_existing_exact_partial says, with and without pruning, that the update is harmless exactly when the itemset is not used, and what the table becomes otherwise."
  },
  {
   "property": "C18",
   "status": "partial",
   "theorems": [
    "Verif.Slim.support_single_fit_partial",
    "Verif.Slim.support_not_stored_partial",
    "Verif.Slim.support_stale"
   ],
   "note": "False for the code after two fits of one object (support_stale). Proved for one fit and any sequence of queries and evictions, and for queries with no stored prefix."
  },
  {
   "property": "C19",
   "status": "proved",
   "theorems": [
    "Verif.Slim.candidates_exact",
    "Verif.Slim.candidates_distinct_sorted",
    "Verif.Slim.candidates_fresh"
   ],
   "note": ""
  },
  {
   "property": "C20",
   "status": "proved",
   "theorems": [
    "Verif.Slim.prefit_singletons"
   ],
   "note": ""
  },
  {
   "property": "C21",
   "status": "proved",
   "theorems": [
    "Verif.Classify.fit_split",
    "Verif.Classify.predict_best",
    "Verif.Classify.predict_shortest"
   ],
   "note": ""
  },
  {
   "property": "C22",
   "status": "partial",
   "theorems": [
    "Verif.Classify.pruning_partial",
    "Verif.Classify.pruning_ignored",
    "Verif.Classify.pruning_not_honoured"
   ],
   "note": "False for the code (pruning_not_honoured): the parameter is ignored and SLIM's default is used. pruning_partial: the claim when the parameter equals that default."
  },
  {
   "property": "C23",
   "status": "partial",
   "theorems": [
    "Verif.Slim.vectorizer_content_partial",
    "Verif.Slim.vectorizer_empty"
   ],
   "note": "Everything is proved but the number of rows for the empty database, where the code returns one row (vectorizer_empty)."
  },
  {
   "property": "C24",
   "status": "proved",
   "theorems": [
    "Verif.Border.borderDiff_total",
    "Verif.Border.borderDiff_border",
    "Verif.Border.borderDiff_minimal"
   ],
   "note": ""
  },
  {
   "property": "C25",
   "status": "partial",
   "theorems": [
    "Verif.Border.fit_borders_partial",
    "Verif.Border.fit_total",
    "Verif.Border.fit_indexError",
    "Verif.Border.split_correct"
   ],
   "note": "Proved whenever fit returns, and fit returns when the raised threshold is at most 1 and the first collection has a frequent item. Otherwise fit can raise IndexError (fit_indexError)."
  },
  {
   "property": "C26",
   "status": "partial",
   "theorems": [
    "Verif.Border.discover_exact",
    "Verif.Border.default_size",
    "Verif.Border.discover_emerging_partial",
    "Verif.Border.discover_not_emerging",
    "Verif.Border.discover_misses"
   ],
   "note": "The claim is false for the code: discover_not_emerging and discover_misses are concrete runs. discover_exact states exactly what is returned; discover_emerging_partial is the part of the claim that holds."
  },
  {
   "property": "C27",
   "status": "proved",
   "theorems": [
    "Verif.Mdlp.fit_cuts",
    "Verif.Mdlp.fit_structure",
    "Verif.Mdlp.fit_empty"
   ],
   "note": ""
  },
  {
   "property": "C28",
   "status": "partial",
   "theorems": [
    "Verif.Mdlp.transform_codes",
    "Verif.Mdlp.transform_monotone",
    "Verif.Mdlp.transform_narrow",
    "Verif.Mdlp.frame_partial",
    "Verif.Mdlp.frame_accepts",
    "Verif.Mdlp.frame_reordered"
   ],
   "note": "False for DataFrames with reordered columns (frame_reordered); proved otherwise."
  },
  {
   "property": "C29",
   "status": "partial",
   "theorems": [
    "Verif.Hooks.hook_transparent",
    "Verif.Hooks.hook_once_partial",
    "Verif.Hooks.attach_missing",
    "Verif.Hooks.type_error_runs_twice",
    "Verif.Hooks.attached_twice_runs_twice"
   ],
   "note": "False when the callback raises TypeError or is attached twice (witnesses); proved otherwise."
  },
  {
   "property": "C30",
   "status": "partial",
   "theorems": [
    "Verif.Hooks.set_get_identity",
    "Verif.Hooks.set_then_get",
    "Verif.Hooks.set_unknown_partial",
    "Verif.Hooks.set_params_not_atomic"
   ],
   "note": "set_params with an unknown name assigns the names before it (set_params_not_atomic); set_unknown_partial: the error is raised and names that follow are untouched."
  },
  {
   "property": "C31",
   "status": "partial",
   "theorems": [
    "Verif.Datasets.make_transactions_partial",
    "Verif.Datasets.make_transactions_none",
    "Verif.Datasets.make_transactions_density",
    "Verif.Datasets.make_classification_partial",
    "Verif.Datasets.classes_disjoint",
    "Verif.Datasets.make_classification_loses",
    "Verif.Datasets.make_classification_empty_class"
   ],
   "note": "make_classification returns fewer samples than asked when the number of classes does not divide it, and raises when a class gets no sample; make_transactions(0) raises. Proved otherwise."
  },
  {
   "property": "C32",
   "status": "proved",
   "theorems": [
    "Verif.Datasets.read_line_by_line",
    "Verif.Datasets.read_roundtrip",
    "Verif.Datasets.read_int_roundtrip"
   ],
   "note": ""
  },
  {
   "property": "C33",
   "status": "proved",
   "theorems": [
    "Verif.TimeScale.autoscale_exact",
    "Verif.TimeScale.autoscale_order"
   ],
   "note": ""
  },
  {
   "property": "C34",
   "status": "proved",
   "theorems": [
    "Verif.PTree.corrections_roundtrip",
    "Verif.PTree.corrections_recovered",
    "Verif.PTree.factorized_times",
    "Verif.PTree.first_distance_shifts",
    "Verif.PTree.computeEFromO_eq",
    "Verif.PTree.getOccs_iff"
   ],
   "note": "Regular trees: repetitions at least 1, children present, first child at distance 0. A first distance other than 0 breaks it (first_distance_shifts)."
  },
  {
   "property": "C35",
   "status": "proved",
   "theorems": [
    "Verif.PTree.occurrences_counted",
    "Verif.PTree.leaves_once",
    "Verif.PTree.events_are_alphabet",
    "Verif.PTree.uncorrected_cover"
   ],
   "note": ""
  },
  {
   "property": "C36",
   "status": "partial",
   "theorems": [
    "Verif.Miner.cover_and_uncovered",
    "Verif.Miner.lossless_partial",
    "Verif.Miner.full_cover_error",
    "Verif.Miner.no_pattern_error",
    "Verif.Miner.simple_from_data",
    "Verif.Miner.simple_covers"
   ],
   "note": "The code raises when every event is covered or when there is no pattern (full_cover_error, no_pattern_error); proved otherwise."
  },
  {
   "property": "C37",
   "status": "partial",
   "theorems": [
    "Verif.Export.import_export_partial",
    "Verif.Export.export_without_scale",
    "Verif.Export.export_without_pattern",
    "Verif.Export.import_integer_events"
   ],
   "note": "Proved for the automatic time scale, at least one pattern and event names whose order survives conversion to text; false otherwise (three witnesses)."
  },
  {
   "property": "C38",
   "status": "proved",
   "theorems": [
    "Verif.Select.selection_efficient",
    "Verif.Select.efficient_total",
    "Verif.Select.selection_saves",
    "Verif.Select.selection_complete"
   ],
   "note": "Costs in any ordered field; rounding is the subject of C141."
  },
  {
   "property": "C39",
   "status": "proved",
   "theorems": [
    "Verif.Cycles.dp_optimal",
    "Verif.Cycles.dp_score",
    "Verif.Cycles.dp_cycles"
   ],
   "note": "Costs in any ordered group; rounding of float sums is C138."
  },
  {
   "property": "C40",
   "status": "proved",
   "theorems": [
    "Verif.Periodic.merge_sorted",
    "Verif.Periodic.mergeSortedPids_eq",
    "Verif.Periodic.sortPids_sorted"
   ],
   "note": ""
  },
  {
   "property": "C41",
   "status": "proved",
   "theorems": [
    "Verif.Periodic.key_roundtrip",
    "Verif.Periodic.key_injective"
   ],
   "note": ""
  },
  {
   "property": "C42",
   "status": "partial",
   "theorems": [
    "Verif.Graph.cover_partial",
    "Verif.Graph.cover_used",
    "Verif.Graph.vertex_label_twice",
    "Verif.Graph.parallel_edges",
    "Verif.Graph.used_accumulates"
   ],
   "note": "Edges: exactly once, proved (parallel edges with one label excluded, parallel_edges). Vertex labels: at least once and never both by an embedding and a singleton; a label shared by two used embeddings is described twice (vertex_label_twice)."
  },
  {
   "property": "C43",
   "status": "partial",
   "theorems": [
    "Verif.Graph.support_exact",
    "Verif.Graph.support_partial",
    "Verif.Graph.support_off_by_one",
    "Verif.Graph.support_nil",
    "Verif.Graph.support_wrong"
   ],
   "note": "False for the code: the first image of every pattern vertex is dropped (support_wrong). Exact value proved; equal to the claim when the first image recurs."
  },
  {
   "property": "C44",
   "status": "proved",
   "theorems": [
    "Verif.Graph.binomial_correct",
    "Verif.Graph.binomial_exact",
    "Verif.Graph.binomial_error"
   ],
   "note": "The float product is a rounding oracle: exact whenever rounding fixes the integers up to n*C(n,k)."
  },
  {
   "property": "C45",
   "status": "proved",
   "theorems": [
    "Verif.Graph.universalInt_kraft",
    "Verif.Graph.universalInt0_kraft",
    "Verif.Graph.universalInt_prefix_code",
    "Verif.Graph.universalInt0_prefix_code",
    "Verif.Graph.universalInt_monotone",
    "Verif.Graph.universalInt0_monotone",
    "Verif.Graph.universalInt_tight",
    "Verif.Graph.universalInt_error"
   ],
   "note": "Exact logarithms (floats agree below 2^48)."
  },
  {
   "property": "C46",
   "status": "partial",
   "theorems": [
    "Verif.Graph.search_improves_partial",
    "Verif.Graph.tieFree_of_sizes",
    "Verif.Graph.refit_partial",
    "Verif.Graph.retest_raises",
    "Verif.Graph.retest_witness",
    "Verif.Graph.prune_twice_raises",
    "Verif.Graph.refit_raises",
    "Verif.Graph.tie_increases",
    "Verif.Graph.timeout_persists"
   ],
   "note": "Strict decrease and final at most initial proved when the length ignores the order of rows that compare as equal; false otherwise (tie_increases). A regenerated candidate raises TypeError, a row listed twice for pruning raises ValueError, a refit can raise and keeps the old timeout (witnesses)."
  },
  {
   "property": "C47",
   "status": "partial",
   "theorems": [
    "Verif.Graph.candEq_refl",
    "Verif.Graph.candEq_trans",
    "Verif.Graph.candEq_symm_partial",
    "Verif.Graph.candEq_not_symm",
    "Verif.Graph.inverse_inverse",
    "Verif.Graph.inverse_mutates",
    "Verif.Graph.inverse_unaltered",
    "Verif.Graph.self_inverse_test"
   ],
   "note": "Symmetry fails (candEq_not_symm), proved for port lists without duplicates; inverse alters the original (inverse_mutates)."
  },
  {
   "property": "C48",
   "status": "partial",
   "theorems": [
    "Verif.Graph.label_counts",
    "Verif.Graph.total_label_exact",
    "Verif.Graph.total_label_partial",
    "Verif.Graph.total_label_wrong",
    "Verif.Graph.list_label_error"
   ],
   "note": "False when a name labels both a vertex and an edge (total_label_wrong); labels stored as lists raise (list_label_error). Proved for disjoint label sets."
  },
  {
   "property": "C49",
   "status": "proved",
   "theorems": [
    "Verif.LCM.transformFile_eq",
    "Verif.LCM.readLine_itemLine",
    "Verif.LCM.lcm_itemset_ne_nil"
   ],
   "note": ""
  },
  {
   "property": "C50",
   "status": "proved",
   "theorems": [
    "Verif.PTree.factorize_preserves",
    "Verif.PTree.factorize_loses_distance"
   ],
   "note": "Regular trees; a grandchild distance other than 0 is lost (factorize_loses_distance)."
  },
  {
   "property": "C51",
   "status": "proved",
   "theorems": [
    "Verif.DataSeq.dict_sequence",
    "Verif.DataSeq.dict_empty_entry",
    "Verif.DataSeq.list_sequence"
   ],
   "note": ""
  },
  {
   "property": "C52",
   "status": "partial",
   "theorems": [
    "Verif.CandPool.pool_partial",
    "Verif.CandPool.pool_keeps",
    "Verif.CandPool.addCands_adds",
    "Verif.CandPool.new_since_reset",
    "Verif.CandPool.addCands_ok",
    "Verif.CandPool.addCands_duplicate_raises",
    "Verif.CandPool.addCand_drops"
   ],
   "note": "False for single additions with default arguments (addCand_drops). Proved for group additions, quiet additions and resets."
  },
  {
   "property": "C53",
   "status": "proved",
   "theorems": [
    "Verif.Slim.cover_row_greedy",
    "Verif.Slim.code_length_independent"
   ],
   "note": ""
  },
  {
   "property": "C54",
   "status": "partial",
   "theorems": [
    "Verif.Slim.code_length_finite_partial",
    "Verif.Slim.code_length_single"
   ],
   "note": "False for the code when the model has a single itemset (code_length_single): its code length 0 is replaced by infinity. Proved for all other models."
  },
  {
   "property": "C55",
   "status": "proved",
   "theorems": [
    "Verif.DataSeq.org_freqs_sum",
    "Verif.DataSeq.adj_freqs_sum",
    "Verif.DataSeq.sequence_freqs"
   ],
   "note": "Exact rationals; float rounding not modelled."
  },
  {
   "property": "C56",
   "status": "proved",
   "theorems": [
    "Verif.CandPool.sorted_pids",
    "Verif.CandPool.addCand_after_groups"
   ],
   "note": "Histories of group additions, quiet additions and resets; addCand_after_groups: when a single addition to such a pool succeeds, and that the order is kept then."
  },
  {
   "property": "C57",
   "status": "proved",
   "theorems": [
    "Verif.CandPool.pidsSlice_exact"
   ],
   "note": ""
  },
  {
   "property": "C58",
   "status": "proved",
   "theorems": [
    "Verif.Cycles.cycles_partition",
    "Verif.Cycles.combine_loses_split",
    "Verif.Cycles.tail_never_examined"
   ],
   "note": ""
  },
  {
   "property": "C59",
   "status": "partial",
   "theorems": [
    "Verif.Concat.concat_describes_partial",
    "Verif.Concat.concat_wrong"
   ],
   "note": "False when a part other than the last has several children (concat_wrong). Proved otherwise."
  },
  {
   "property": "C60",
   "status": "partial",
   "theorems": [
    "Verif.Miner.residuals_ids_partial",
    "Verif.Miner.residuals_ids_wrong",
    "Verif.Miner.residuals_ids_missing"
   ],
   "note": "False for the code (residuals_ids_wrong, residuals_ids_missing); residuals_ids_partial is what holds."
  },
  {
   "property": "C61",
   "status": "proved",
   "theorems": [
    "Verif.Graph.cover_history"
   ],
   "note": ""
  },
  {
   "property": "C62",
   "status": "proved",
   "theorems": [
    "Verif.Nest.nest_describes",
    "Verif.Nest.nest_describes_fold"
   ],
   "note": "nest_describes: any search satisfying EnvOk; nest_describes_fold: the fold search of the code."
  },
  {
   "property": "C63",
   "status": "partial",
   "theorems": [
    "Verif.Nest.group_kept_partial",
    "Verif.Nest.found_is_nested",
    "Verif.Nest.nest_loses"
   ],
   "note": "False for the code (nest_loses); proved for groups met in the order of start times."
  },
  {
   "property": "C64",
   "status": "partial",
   "theorems": [
    "Verif.PattKey.pattKey_injective",
    "Verif.PattKey.pattMinorKey_injective",
    "Verif.PattKey.minorKey_children",
    "Verif.PattKey.keys_identify_partial",
    "Verif.PattKey.keys_other_occurrences",
    "Verif.PattKey.keys_not_canonical"
   ],
   "note": "Keys identify trees, bodies, and first times; candidates with equal keys can have different occurrences (keys_other_occurrences)."
  },
  {
   "property": "C65",
   "status": "partial",
   "theorems": [
    "Verif.Fold.fold_sound",
    "Verif.Fold.fold_blocks_partial",
    "Verif.Fold.block_positions",
    "Verif.Fold.fold_positions",
    "Verif.Fold.fold_diverges"
   ],
   "note": "Full for strictly increasing occurrences, fewer than 2000. False for the code otherwise: positions of chains from 2000 occurrences on (block_positions, fold_positions), equal occurrences (fold_diverges)."
  },
  {
   "property": "C66",
   "status": "proved",
   "theorems": [
    "Verif.Fold.fold_distinct"
   ],
   "note": ""
  },
  {
   "property": "C67",
   "status": "proved",
   "theorems": [
    "Verif.Mine.periodDiffs_median",
    "Verif.Mine.period_optimal",
    "Verif.Mine.computePeriod_optimal",
    "Verif.Mine.computePeriod_short"
   ],
   "note": "Exact medians; in double precision see C142."
  },
  {
   "property": "C68",
   "status": "proved",
   "theorems": [
    "Verif.Mine.merge_cheapest"
   ],
   "note": ""
  },
  {
   "property": "C69",
   "status": "proved",
   "theorems": [
    "Verif.Mine.topKeach_kept",
    "Verif.Mine.topKeach_covers"
   ],
   "note": ""
  },
  {
   "property": "C70",
   "status": "proved",
   "theorems": [
    "Verif.Mine.mineAlpha_sound"
   ],
   "note": ""
  },
  {
   "property": "C71",
   "status": "partial",
   "theorems": [
    "Verif.Mine.mineSimple_ok",
    "Verif.Mine.fit_lossless_partial",
    "Verif.Mine.fold_descending",
    "Verif.Mine.descending_diverges"
   ],
   "note": "Full for series in the order of time (with the conditions of C36 on what reconstruct and get_residuals accept). False for the code otherwise: nine equidistant occurrences in decreasing order make fit run forever (descending_diverges)."
  },
  {
   "property": "C72",
   "status": "partial",
   "theorems": [
    "Verif.Cost.cost_cycle",
    "Verif.Cost.cost_triple_eq",
    "Verif.Cost.cost_triple_gap",
    "Verif.Cost.triple_underpriced"
   ],
   "note": "Cycles: full. False for the code on three occurrences: the price recorded is that of the smaller gap as period while the period recorded is the middle of the gaps (triple_underpriced); the difference is exact in cost_triple_gap."
  },
  {
   "property": "C73",
   "status": "proved",
   "theorems": [
    "Verif.Cost.cost_message",
    "Verif.Cost.cost_nonneg"
   ],
   "note": ""
  },
  {
   "property": "C74",
   "status": "proved",
   "theorems": [
    "Verif.Cost.cost_kraft",
    "Verif.Cost.cost_count",
    "Verif.Cost.residual_kraft"
   ],
   "note": ""
  },
  {
   "property": "C75",
   "status": "partial",
   "theorems": [
    "Verif.Cost.collection_cost",
    "Verif.Cost.collection_add",
    "Verif.Cost.residuals_only",
    "Verif.Cost.empty_collection",
    "Verif.Cost.duplicates_underpriced",
    "Verif.Cost.residual_cost"
   ],
   "note": "Full for the sums. The empty collection has the code length of the data only without duplicated occurrences; false otherwise (duplicates_underpriced)."
  },
  {
   "property": "C76",
   "status": "proved",
   "theorems": [
    "Verif.Kinds.kind_correct",
    "Verif.Kinds.kind_unique",
    "Verif.Kinds.report_counts",
    "Verif.Kinds.events_aligned",
    "Verif.Kinds.cardO_gen",
    "Verif.Kinds.major_first",
    "Verif.Kinds.major_period",
    "Verif.Kinds.events_without_repeats",
    "Verif.Kinds.events_nesting",
    "Verif.Kinds.rVals_chain"
   ],
   "note": ""
  },
  {
   "property": "C77",
   "status": "proved",
   "theorems": [
    "Verif.Complex.factorize_sound",
    "Verif.Complex.factorize_complete"
   ],
   "note": ""
  },
  {
   "property": "C78",
   "status": "proved",
   "theorems": [
    "Verif.Complex.fit_complex_candidates",
    "Verif.Complex.found_ge_one",
    "Verif.Complex.exact_worldOk",
    "Verif.Complex.fit_complex_candidates_exact"
   ],
   "note": ""
  },
  {
   "property": "C79",
   "status": "partial",
   "theorems": [
    "Verif.Complex.fit_complex_lossless_partial",
    "Verif.Complex.fit_complex_lossless_exact_partial",
    "Verif.Complex.fit_complex_wrong"
   ],
   "note": "proved for at most one round of combinations; with more rounds the code returns patterns that generate occurrences not in the data (witness)"
  },
  {
   "property": "C80",
   "status": "proved",
   "theorems": [
    "Verif.Complex.fit_complex_terminates",
    "Verif.Complex.fit_complex_terminates_exact"
   ],
   "note": ""
  },
  {
   "property": "C81",
   "status": "proved",
   "theorems": [
    "Verif.Graph.merge_glues",
    "Verif.Graph.merge_occurs",
    "Verif.Graph.singleton_patterns",
    "Verif.Graph.made_patterns"
   ],
   "note": "for patterns whose vertices are numbered from 1 without gaps (everything the search makes); in a graph that is no multigraph, when no edge joins the same ports in both"
  },
  {
   "property": "C82",
   "status": "partial",
   "theorems": [
    "Verif.Graph.merge_count_iff",
    "Verif.Graph.merge_count_partial",
    "Verif.Graph.merge_three_labels",
    "Verif.Graph.merge_unlabelled"
   ],
   "note": "false as soon as one side of a port has two labels and the other has one (witness with three labels of one vertex); exact condition proved"
  },
  {
   "property": "C83",
   "status": "partial",
   "theorems": [
    "Verif.Graph.rewrite_lossless_partial",
    "Verif.Graph.rewrite_order"
   ],
   "note": "proved when rows of patterns with edges come before rows of one vertex and there are no equal parallel edges; false for other orders (witness: two data graphs with the same rewritten graph)"
  },
  {
   "property": "C84",
   "status": "proved",
   "theorems": [
    "Verif.Graph.prequential_is_adaptive",
    "Verif.Graph.prequential_perm",
    "Verif.Graph.prequential_kraft",
    "Verif.Graph.prequential_nonneg"
   ],
   "note": "floats are real numbers"
  },
  {
   "property": "C85",
   "status": "partial",
   "theorems": [
    "Verif.Graph.rewrite_description",
    "Verif.Graph.rewrite_description_partial",
    "Verif.Graph.labels_not_counted",
    "Verif.Graph.port_names_matter"
   ],
   "note": "exact value proved for graphs without loops; it is the length of the message when no row in use has two ports, and is not in general (two witnesses): numbers of pattern vertices are taken for counts"
  },
  {
   "property": "C86",
   "status": "partial",
   "theorems": [
    "Verif.Graph.code_lengths",
    "Verif.Graph.code_weights",
    "Verif.Graph.code_kraft_partial",
    "Verif.Graph.code_kraft_strict",
    "Verif.Graph.port_codes"
   ],
   "note": "exact lengths and exact sum of weights proved in all cases; the sum is one unless a label is in use both as a vertex and as an edge singleton, then it is below one (proved)"
  },
  {
   "property": "C87",
   "status": "partial",
   "theorems": [
    "Verif.Graph.patterns_exact",
    "Verif.Graph.patterns_partial",
    "Verif.Graph.only_pattern_lost",
    "Verif.Graph.shared_label_lost"
   ],
   "note": "exact result proved in all cases; it is the set of patterns in use when two kinds of nodes are in use and no label is both a vertex and an edge singleton; false otherwise (two witnesses)"
  },
  {
   "property": "C88",
   "status": "partial",
   "theorems": [
    "Verif.Graph.description_exact",
    "Verif.Graph.unknown_label",
    "Verif.Graph.description_kraft_partial",
    "Verif.Graph.row_kraft_partial",
    "Verif.Graph.negative_description"
   ],
   "note": "exact message length proved in all cases; Kraft inequality proved when no label is both a vertex and an edge label of the data; false otherwise (witness)"
  },
  {
   "property": "C89",
   "status": "partial",
   "theorems": [
    "Verif.Graph.singleton_description",
    "Verif.Graph.table_description",
    "Verif.Graph.table_description_partial",
    "Verif.Graph.edge_singleton_two_bits",
    "Verif.Graph.table_not_covered"
   ],
   "note": "exact value proved in all cases: two bits more per edge singleton in use than the sum of the descriptions (witness); equal to the sum when no edge singleton is in use"
  },
  {
   "property": "C90",
   "status": "partial",
   "theorems": [
    "Verif.Graph.candidates_found",
    "Verif.Graph.candidate_patterns_partial",
    "Verif.Graph.candidates_twice",
    "Verif.Graph.candidates_mixed"
   ],
   "note": "success, soundness, completeness, distinctness and data ports proved when no label is named like a row; the two patterns proved when no label is in use both as vertex and as edge singleton (witness otherwise); with equal labels a merge may appear in both directions (witness)"
  },
  {
   "property": "C91",
   "status": "partial",
   "theorems": [
    "Verif.Graph.estimated_usage_partial",
    "Verif.Graph.usage_too_small"
   ],
   "note": "proved when the labels differ or the candidate is its own inverse; false otherwise (witness)"
  },
  {
   "property": "C92",
   "status": "partial",
   "theorems": [
    "Verif.Graph.exclusive_ports_partial",
    "Verif.Graph.exclusive_too_large"
   ],
   "note": "never smaller; equal unless a later candidate with equal labels is the inverse (witness)"
  },
  {
   "property": "C93",
   "status": "proved",
   "theorems": [
    "Verif.Nodes.append_events",
    "Verif.Nodes.merge_events",
    "Verif.Nodes.repeat_events",
    "Verif.Nodes.built_events",
    "Verif.Nodes.map_events",
    "Verif.Nodes.ofDict_is",
    "Verif.Nodes.cycle_is"
   ],
   "note": ""
  },
  {
   "property": "C94",
   "status": "proved",
   "theorems": [
    "Verif.Nodes.concat_dict",
    "Verif.Nodes.nest_dict",
    "Verif.Nodes.concatTree_spec",
    "Verif.Nodes.nestDict_spec",
    "Verif.Nodes.mined_good",
    "Verif.Nodes.concat_root_last"
   ],
   "note": "for patterns whose dictionary has node 0 first, which holds for all patterns made while mining (mined_good); a pattern made by hand may have it last (concat_root_last)"
  },
  {
   "property": "C95",
   "status": "proved",
   "theorems": [
    "Verif.Nodes.factorize_dict",
    "Verif.Nodes.canFactorize_spec",
    "Verif.Nodes.factorizeTree_spec"
   ],
   "note": ""
  },
  {
   "property": "C96",
   "status": "partial",
   "theorems": [
    "Verif.Mdlp.generate_cut_best",
    "Verif.Mdlp.best_gain_pos",
    "Verif.Mdlp.fit_fayyad_irani_partial",
    "Verif.Mdlp.many_classes_no_cut",
    "Verif.Mdlp.many_classes_wrong"
   ],
   "note": "exact reals; holds for fewer than 40 classes, false for 40 to 43 classes by integer overflow (many_classes_wrong)"
  },
  {
   "property": "C97",
   "status": "partial",
   "theorems": [
    "Verif.Mdlp.shuffle_irrelevant_partial",
    "Verif.Mdlp.shuffle_matters"
   ],
   "note": "holds when equal values have equal labels; false otherwise (shuffle_matters)"
  },
  {
   "property": "C98",
   "status": "proved",
   "theorems": [
    "Verif.Slim.compute_sizes",
    "Verif.Slim.history_bits",
    "Verif.Slim.fit_bits",
    "Verif.Slim.kraft",
    "Verif.Slim.optimal"
   ],
   "note": "exact reals instead of 32 bit logarithms"
  },
  {
   "property": "C99",
   "status": "partial",
   "theorems": [
    "Verif.Slim.gain_exact_partial",
    "Verif.Slim.merge_lossless",
    "Verif.Slim.fit_misses",
    "Verif.Slim.gain_order"
   ],
   "note": "exact difference between estimate and true saving proved; they differ (fit_misses)"
  },
  {
   "property": "C100",
   "status": "partial",
   "theorems": [
    "Verif.Graph.embeddings_exact_partial",
    "Verif.Graph.found_iff",
    "Verif.Graph.automorphism_exact",
    "Verif.Graph.multigraph_misses",
    "Verif.Graph.multigraph_false_hit",
    "Verif.Graph.unlabelled_hit",
    "Verif.Graph.unlabelled_raises",
    "Verif.Graph.one_tuple_missed",
    "Verif.Graph.isomorphic_asymmetric"
   ],
   "note": "proved for labelled data without parallel edges; false for parallel edges and unlabelled edges (witnesses)"
  },
  {
   "property": "C101",
   "status": "partial",
   "theorems": [
    "Verif.Ubiq.ise_content_partial",
    "Verif.Ubiq.loaded_iff",
    "Verif.Ubiq.one_file",
    "Verif.Ubiq.start_props",
    "Verif.Ubiq.start_end_together",
    "Verif.Ubiq.is_content",
    "Verif.Ubiq.times_too_early",
    "Verif.Ubiq.hour_is_a_minute",
    "Verif.Ubiq.is_repeats",
    "Verif.Ubiq.one_bad_date"
   ],
   "note": "events, order, selection proved; the times are wrong (minutes read as seconds, times_too_early)"
  },
  {
   "property": "C102",
   "status": "partial",
   "theorems": [
    "Verif.Hooks.create_partial",
    "Verif.Hooks.refused_iff",
    "Verif.Hooks.create_error",
    "Verif.Hooks.accepted",
    "Verif.Hooks.refused",
    "Verif.Hooks.not_frozen",
    "Verif.Hooks.present_name"
   ],
   "note": "what the check does is characterised; it is neither sound nor complete for modifications of self, and the dict is not immutable (witnesses)"
  },
  {
   "property": "C103",
   "status": "partial",
   "theorems": [
    "Verif.Graph.tested_pattern_occurs_partial",
    "Verif.Graph.table_patterns_occur_partial",
    "Verif.Graph.loop_pattern_absent",
    "Verif.Graph.mixed_pattern_absent",
    "Verif.Graph.named_pattern_absent"
   ],
   "note": "Simple data graphs without loops, no label used both for vertices and edges, no label that is the name of a row or vertex; rows in the order of the cover when candidates are generated. Witnesses for a loop, for a shared label and for a label that names a vertex, where the code tests a pattern that does not occur."
  },
  {
   "property": "C104",
   "status": "partial",
   "theorems": [
    "Verif.Display.text_identifies_partial",
    "Verif.Display.table_identifies_partial",
    "Verif.Display.table_units_partial",
    "Verif.Display.columns_units",
    "Verif.Display.int_units_wrong",
    "Verif.Display.text_names_ambiguous",
    "Verif.Display.text_times_ambiguous",
    "Verif.Display.printed_nearest"
   ],
   "note": "The table determines the patterns when names have no round bracket and no opening square bracket and, for dates, times are whole microseconds; witnesses otherwise. All values are in the unit of the data for dates; for integer times with a common factor the printed pattern and the corrections never are."
  },
  {
   "property": "C105",
   "status": "proved",
   "theorems": [
    "Verif.Graph.fit_ends"
   ],
   "note": "For simple data graphs (directed or taken as such) with string edge labels; the embeddings of a pattern are those of the subgraph search of networkx, in an order that depends on the pattern only. The clock does not go back."
  },
  {
   "property": "C106",
   "status": "partial",
   "theorems": [
    "Verif.Draw.drawing_shows",
    "Verif.Draw.drawing_identifies_partial",
    "Verif.Draw.draw_after_transform_partial",
    "Verif.Draw.draw_before_transform",
    "Verif.Draw.draws_old_table",
    "Verif.Draw.drawing_rounds"
   ],
   "note": "False after a later fit, or a transform without patterns (draws_old_table), and for dates with nanoseconds (drawing_rounds); proved otherwise."
  },
  {
   "property": "C107",
   "status": "partial",
   "theorems": [
    "Verif.Session.rows_from_last",
    "Verif.Session.table_from_last_partial",
    "Verif.Session.file_from_last_partial",
    "Verif.Session.drawing_from_last_partial",
    "Verif.Session.drawing_number",
    "Verif.Session.transform_stale_scale",
    "Verif.Session.export_old_patterns",
    "Verif.Session.export_other_data",
    "Verif.Session.scale_switched",
    "Verif.Session.params_last",
    "Verif.Session.nothing_loaded"
   ],
   "note": "Proved in full for reconstruct and get_residuals. False for transform without automatic time scale, for export_patterns after a fit without patterns or an import, and for draw_pattern (see C106); proved otherwise."
  },
  {
   "property": "C108",
   "status": "partial",
   "theorems": [
    "Verif.Graph.display_total",
    "Verif.Graph.display_determines_partial",
    "Verif.Graph.display_ambiguous",
    "Verif.Graph.discover_raises",
    "Verif.Graph.discover_singletons",
    "Verif.Graph.display_iff",
    "Verif.Graph.discover_iff"
   ],
   "note": "Every pattern can be displayed, and the text determines labels and ends of each edge as texts. It does not determine the pattern, and discover raises as soon as a pattern is in use and lists singletons under the wrong title otherwise; both proved."
  },
  {
   "property": "C109",
   "status": "partial",
   "theorems": [
    "Verif.Fetch.fetch_again",
    "Verif.Fetch.fetch_right_partial",
    "Verif.Fetch.named_never_mix",
    "Verif.Fetch.split_classes",
    "Verif.Fetch.shared_name",
    "Verif.Fetch.shared_log",
    "Verif.Fetch.folder_missing",
    "Verif.Fetch.bad_answer_stays"
   ],
   "note": "The second fetch and the classes are proved in full. The right data are proved for calls that do not share a file name, which covers all the functions with a fixed file name; with a shared name it is false. A missing data_home raises."
  },
  {
   "property": "C110",
   "status": "partial",
   "theorems": [
    "Verif.LCM.lcm_last_fit_partial",
    "Verif.LCM.lcmMax_last_fit_partial",
    "Verif.LCM.fit_accepts",
    "Verif.LCM.never_fitted",
    "Verif.LCM.fitTransform_exact",
    "Verif.LCM.data_matter",
    "Verif.LCM.max_positional_dropped",
    "Verif.LCM.lcm_limited",
    "Verif.LCM.lcmMax_limited"
   ],
   "note": "Proved except where false: the data given to transform are compared in shape with those of the fit and the call raises if they differ, and LCMMax drops positional options."
  },
  {
   "property": "C111",
   "status": "partial",
   "theorems": [
    "Verif.Slim.refit_lossless",
    "Verif.Slim.session_order_partial",
    "Verif.Slim.refit_same_partial",
    "Verif.Slim.refit_stale_order",
    "Verif.Slim.refit_stale_cover"
   ],
   "note": "Proved except where false: supports stored during earlier fits on other data decide the order of the code table and hence the covers."
  },
  {
   "property": "C112",
   "status": "proved",
   "theorems": [
    "Verif.Slim.fit_local_optimum"
   ],
   "note": ""
  },
  {
   "property": "C113",
   "status": "proved",
   "theorems": [
    "Verif.Slim.fit_usages",
    "Verif.Slim.history_usages",
    "Verif.Slim.history_determined"
   ],
   "note": "Updates with an itemset of the table are C17. Assumption: an itemset is iterated in an order that depends on the set only."
  },
  {
   "property": "C114",
   "status": "proved",
   "theorems": [
    "Verif.Slim.order_irrelevant",
    "Verif.Slim.exact_order_irrelevant"
   ],
   "note": "Assumptions: an itemset is iterated in an order that depends on the set only; gains and the iteration orders of the prune sets depend on itemsets and counts only."
  },
  {
   "property": "C115",
   "status": "proved",
   "theorems": [
    "Verif.Classify.training_order",
    "Verif.Classify.query_rowwise"
   ],
   "note": "Assumptions as in C114."
  },
  {
   "property": "C116",
   "status": "proved",
   "theorems": [
    "Verif.Mine.shift_equivariant",
    "Verif.Mine.shift_exact"
   ],
   "note": "Series in time order, auto_time_scale=False, simple cycles (complex=False). Costs: any that do not see the origin, and those of the code over exact reals."
  },
  {
   "property": "C117",
   "status": "proved",
   "theorems": [
    "Verif.Mdlp.increasing_change",
    "Verif.Mdlp.classes_renamed"
   ],
   "note": "Exact rationals and reals. Same shuffle before and after; the sort compares values only."
  },
  {
   "property": "C118",
   "status": "proved",
   "theorems": [
    "Verif.Border.order_independent"
   ],
   "note": "Transactions and labels of the same length. Results up to order."
  },
  {
   "property": "C119",
   "status": "proved",
   "theorems": [
    "Verif.LCM.lcm_renamed",
    "Verif.LCM.lcmMax_renamed",
    "Verif.LCM.lcm_threshold"
   ],
   "note": "Absolute thresholds; a relative one is a multiple of the number of transactions, which renaming keeps."
  },
  {
   "property": "C120",
   "status": "proved",
   "theorems": [
    "Verif.LCM.lcm_supports",
    "Verif.LCM.lcmMax_frequent"
   ],
   "note": "max_length = -1."
  },
  {
   "property": "C121",
   "status": "partial",
   "theorems": [
    "Verif.Slim.codes_content",
    "Verif.Slim.codes_probability_partial",
    "Verif.Slim.codes_bounds",
    "Verif.Slim.codes_not_probability",
    "Verif.Slim.codes_row_dependent",
    "Verif.Slim.codes_nan"
   ],
   "note": "The code divides by the usages of the itemsets found in the new data, not of all the itemsets (witnesses). Exact rationals."
  },
  {
   "property": "C122",
   "status": "partial",
   "theorems": [
    "Verif.GraphFile.read_last",
    "Verif.GraphFile.read_graph_partial",
    "Verif.GraphFile.labels_lost",
    "Verif.GraphFile.label_cut",
    "Verif.GraphFile.blank_line_raises"
   ],
   "note": "Parallel edges and repeated vertices keep only the last label; labels with blanks are cut (witnesses)."
  },
  {
   "property": "C123",
   "status": "partial",
   "theorems": [
    "Verif.Slim.same_in_all_processes_partial",
    "Verif.Slim.process_matters",
    "Verif.Slim.prune_matters"
   ],
   "note": "Ties of length and support are broken by the hash order of sets, and so are ties in pruning (witnesses)."
  },
  {
   "property": "C124",
   "status": "partial",
   "theorems": [
    "Verif.Mine.unit_irrelevant_partial",
    "Verif.Mine.days_irrelevant_partial",
    "Verif.Mine.days_exact_partial",
    "Verif.Mine.hour_matters",
    "Verif.Mine.unit_matters",
    "Verif.Complex.complex_days_partial",
    "Verif.Complex.complex_days_exact_partial"
   ],
   "note": "The scale is chosen from the absolute times: other displacements and units change the patterns (witnesses)."
  },
  {
   "property": "C125",
   "status": "proved",
   "theorems": [
    "Verif.Mine.names_irrelevant",
    "Verif.Mine.names_exact",
    "Verif.Select.filterCover_part"
   ],
   "note": "Simple cycles only (complex=False); rows in time order."
  },
  {
   "property": "C126",
   "status": "proved",
   "theorems": [
    "Verif.Complex.complex_shift",
    "Verif.Complex.complex_shift_exact",
    "Verif.Complex.exactWorld_move",
    "Verif.Complex.codeLength_move"
   ],
   "note": "Rows in time order, auto_time_scale=False. Costs over real numbers, not floats; which candidate of a group comes first and which events are passed to the search for nested cycles are parameters that do not see the origin."
  },
  {
   "property": "C127",
   "status": "proved",
   "theorems": [
    "Verif.LCM.lcm_grow",
    "Verif.LCM.lcm_repeat",
    "Verif.LCM.lcmMax_grow",
    "Verif.LCM.lcmMax_repeat"
   ],
   "note": "Thresholds are rational numbers; for rounding of relative thresholds see C128."
  },
  {
   "property": "C128",
   "status": "partial",
   "theorems": [
    "Verif.MinSupp.relative_exact_partial",
    "Verif.MinSupp.relative_default",
    "Verif.MinSupp.relative_default_partial",
    "Verif.MinSupp.relative_near",
    "Verif.MinSupp.relative_misses",
    "Verif.MinSupp.relThreshold_seven",
    "Verif.MinSupp.threshold_rel",
    "Verif.MinSupp.dbl_spec",
    "Verif.MinSupp.dbl_error"
   ],
   "note": "False for the code at supports exactly equal to the threshold (relative_misses). Proved for quotients that are doubles and for the default 0.2 on every number of transactions below 2^50; in general the result differs at most by itemsets of support exactly s (relative_near). Exponents of floats are unbounded in the model."
  },
  {
   "property": "C129",
   "status": "partial",
   "theorems": [
    "Verif.Draw.duration_exact",
    "Verif.Draw.duration_micro",
    "Verif.Draw.start_exact",
    "Verif.Draw.duration_off",
    "Verif.Draw.start_off",
    "Verif.Draw.micro_eq"
   ],
   "note": "Proved for durations of whole microseconds below 2^53 microseconds, for all durations below 2^44 microseconds, and for starts of whole microseconds before 2^33 seconds (2242); false beyond (duration_off, start_off). Times before 1970 are not modelled."
  },
  {
   "property": "C130",
   "status": "partial",
   "theorems": [
    "Verif.Complex.fitData_name",
    "Verif.Complex.complex_names_partial",
    "Verif.Complex.complex_names_exact_partial",
    "Verif.Complex.complex_names_differ"
   ],
   "note": "Proved for renamings that keep the order of the names, for all costs and for the costs of the code. False for other renamings: complex_names_differ shows it for costs that do not distinguish events (not the costs of the code)."
  },
  {
   "property": "C131",
   "status": "partial",
   "theorems": [
    "Verif.Mdlp.midFloat_spec",
    "Verif.Mdlp.fitFloat_cuts",
    "Verif.Mdlp.codes_separate_partial",
    "Verif.Mdlp.codes_separate_int",
    "Verif.Mdlp.codes_merged",
    "Verif.Float.fl_spec",
    "Verif.Float.fl_double",
    "Verif.Float.fl_mono"
   ],
   "note": "Proved if some double lies strictly between the two values, and for all columns of integers up to 2^52. False for consecutive doubles (codes_merged)."
  },
  {
   "property": "C132",
   "status": "partial",
   "theorems": [
    "Verif.Border.fitFloat_borders",
    "Verif.Border.fitFloat_total",
    "Verif.Border.emerging_exact_partial",
    "Verif.Border.emerging_default",
    "Verif.Border.emerging_missed",
    "Verif.Border.raised_near",
    "Verif.MinSupp.compare_near"
   ],
   "note": "Proved if neither bound is a whole number of transactions, and for the default parameters on all collections. False for growth rate 3 and min_supp 0.1 (emerging_missed)."
  },
  {
   "property": "C133",
   "status": "partial",
   "theorems": [
    "Verif.Slim.names_irrelevant_partial",
    "Verif.Slim.exact_names",
    "Verif.Slim.names_matter"
   ],
   "note": "Proved for renamings that keep the order of the items, with sets listed in the corresponding order. False for other renamings (names_matter)."
  },
  {
   "property": "C134",
   "status": "partial",
   "theorems": [
    "Verif.Graph.fit_raises",
    "Verif.Graph.fit_steps_partial",
    "Verif.Graph.total_length_partial"
   ],
   "note": "False: fit raises TypeError on a graph with seven vertices and five edges, for all orders of embeddings and sets (fit_raises). Proved: with at most one label per vertex and without loops and parallel edges, the covers, description lengths, candidates and patterns of every table of the search are defined (fit_steps_partial, total_length_partial)."
  },
  {
   "property": "C135",
   "status": "partial",
   "theorems": [
    "Verif.Graph.union_cover_partial",
    "Verif.Graph.union_loses",
    "Verif.Graph.union_witness"
   ],
   "note": "Proved unless the first graph was covered exactly once more often than the second (union_cover_partial). False then: the first graph is left out (union_loses, union_witness)."
  },
  {
   "property": "C136",
   "status": "partial",
   "theorems": [
    "Verif.Graph.vertex_numbers_partial",
    "Verif.Graph.total_length_renamed",
    "Verif.Graph.candidates_renamed",
    "Verif.Graph.usage_renamed",
    "Verif.Graph.support_renamed",
    "Verif.Graph.label_codes_renamed",
    "Verif.Graph.label_named_vertex",
    "Verif.Graph.embedding_order_matters"
   ],
   "note": "Proved when no label is the name of a vertex or row and embeddings are listed in the same order (vertex_numbers_partial). False for a label that names a vertex (label_named_vertex) and for another order of embeddings (embedding_order_matters)."
  },
  {
   "property": "C137",
   "status": "proved",
   "theorems": [
    "Verif.Graph.fit_consistent",
    "Verif.Graph.timeout_obeyed",
    "Verif.Graph.clock_improves",
    "Verif.Graph.clock_ends"
   ],
   "note": "fit_consistent: length and usages, for any clock. timeout_obeyed: at most k candidates are tested if reading k is at or past the timeout. clock_improves: the length is at most the initial one, when it does not depend on the order of rows that compare as equal (false otherwise, C46). clock_ends: the search ends."
  },
  {
   "property": "C138",
   "status": "partial",
   "theorems": [
    "Verif.Cycles.dp_double_partial",
    "Verif.Cycles.dp_rounded",
    "Verif.Cycles.tableWith_exact",
    "Verif.Cycles.rounding_matters"
   ],
   "note": "Proved up to a factor 1 + 2^-44 (dp_double_partial). Without the factor it is false (rounding_matters)."
  },
  {
   "property": "C139",
   "status": "proved",
   "theorems": [
    "Verif.Border.border_names_independent",
    "Verif.Border.class_names_matter"
   ],
   "note": "Names of classes in the other order do change the result (class_names_matter)."
  },
  {
   "property": "C140",
   "status": "proved",
   "theorems": [
    "Verif.Classify.class_names_follow",
    "Verif.Classify.class_names_untied",
    "Verif.Classify.item_names_follow",
    "Verif.Classify.tied_names_matter"
   ],
   "note": "Ties go to the smaller name (tied_names_matter)."
  },
  {
   "property": "C141",
   "status": "partial",
   "theorems": [
    "Verif.Select.selection_double_partial",
    "Verif.Select.selection_rounded",
    "Verif.Select.total_double",
    "Verif.Select.filterWith_exact",
    "Verif.Select.rounding_overpays"
   ],
   "note": "Proved up to a factor 1 + 2^-32 (1 - 2^-32 for the candidates left out). Without it, it is false (rounding_overpays)."
  },
  {
   "property": "C142",
   "status": "partial",
   "theorems": [
    "Verif.Mine.computePeriod_double_partial",
    "Verif.Mine.period_doubles",
    "Verif.Mine.period_exact",
    "Verif.Mine.period_near",
    "Verif.Mine.period_off"
   ],
   "note": "Proved for gaps up to 2^53, with a bound on the loss for longer ones (period_near). For longer gaps it is false (period_off)."
  },
  {
   "property": "C143",
   "status": "partial",
   "theorems": [
    "Verif.Complex.join_saves_partial",
    "Verif.Complex.join_loses"
   ],
   "note": "Proved for pairs. For three and more candidates the code compares with the wrong ones and it is false (join_loses)."
  },
  {
   "property": "C144",
   "status": "partial",
   "theorems": [
    "Verif.Mine.rows_same_partial",
    "Verif.Mine.groups_order",
    "Verif.Mine.row_order_matters"
   ],
   "note": "Proved for rows in the order of time (rows at the same time in any order) and for series with a repeated row. False for other orders (row_order_matters)."
  },
  {
   "property": "C145",
   "status": "proved",
   "theorems": [
    "Verif.Export.export_plain"
   ],
   "note": ""
  },
  {
   "property": "C146",
   "status": "partial",
   "theorems": [
    "Verif.Mine.compress_bits",
    "Verif.Mine.compress_partial",
    "Verif.Mine.compression_fails"
   ],
   "note": "holds unless a pattern stands for exactly three occurrences at distances differing by more than one; then the code's recorded cost is too low and the claim is false (witness: one event at times 0, 48, 100), by at most one bit for each such pattern"
  },
  {
   "property": "C147",
   "status": "proved",
   "theorems": [
    "Verif.Export.output_repeat",
    "Verif.Export.calls_keep",
    "Verif.Export.calls_import"
   ],
   "note": ""
  },
  {
   "property": "C148",
   "status": "partial",
   "theorems": [
    "Verif.Complex.mineComplex_rated",
    "Verif.Complex.complex_compress_bits",
    "Verif.Complex.complex_compress_partial",
    "Verif.Complex.complex_compression_fails"
   ],
   "note": "The code violates the property: for occurrences 0, 48, 100 the pattern returned costs more than the occurrences one by one, for any number of rounds (complex_compression_fails). Proved for at most one round: the excess is at most one bit for each pattern of three occurrences with distances differing by more than one (complex_compress_bits), none without such patterns (complex_compress_partial), whenever the cost of the patterns is defined."
  },
  {
   "property": "C149",
   "status": "partial",
   "theorems": [
    "Verif.Graph.label_names_partial",
    "Verif.Graph.label_codes_relabel",
    "Verif.Graph.total_length_relabel",
    "Verif.Graph.renaming_extends",
    "Verif.Graph.label_order_matters",
    "Verif.Graph.label_named_like_vertex"
   ],
   "note": "The code violates the property: with two labels exchanged the pattern found has its vertices numbered otherwise (label_order_matters), and a label that is the name of a vertex changes the candidates (label_named_like_vertex). Proved for all changes of names that keep the alphabetical order of the labels of the data and the names made by the program, the embeddings of a pattern being listed in the same order."
  },
  {
   "property": "C150",
   "status": "partial",
   "theorems": [
    "Verif.Graph.vertex_singleton_partial",
    "Verif.Graph.edge_singleton_partial",
    "Verif.Graph.loop_is_vertex_singleton",
    "Verif.Graph.edge_singleton_raises",
    "Verif.Graph.edge_singleton_raises_on",
    "Verif.Graph.two_edges_singleton"
   ],
   "note": "Proved for patterns without loops whose edges all have labels and, for edge singletons, whose vertices are numbered from 1 on. False otherwise: loops, edges without label, and KeyError for other vertex numbers (witnesses)."
  },
  {
   "property": "C151",
   "status": "partial",
   "theorems": [
    "Verif.Graph.pattern_infos_partial",
    "Verif.Graph.infos_list_ports",
    "Verif.Graph.count_ports",
    "Verif.Graph.ports_of_nodes"
   ],
   "note": "The entries of the patterns, the number of ports and the ports of a node are proved; every port is listed as a key too, which the property excludes (infos_list_ports). Names must differ and no piece may have two ports at one data vertex."
  },
  {
   "property": "C152",
   "status": "proved",
   "theorems": [
    "Verif.Graph.bare_vertices",
    "Verif.Graph.bare_search",
    "Verif.Graph.bare_length",
    "Verif.Graph.bare_label_codes",
    "Verif.Graph.bare_embeddings",
    "Verif.Graph.made_each_touched"
   ],
   "note": "Simple directed data graphs, exact real numbers for code lengths. Embeddings as maps; the order in which networkx lists them is not modelled and is the same parameter on both sides."
  },
  {
   "property": "C153",
   "status": "partial",
   "theorems": [
    "Verif.Outline.outline_lines",
    "Verif.Outline.outline_identifies_partial",
    "Verif.Outline.outline_identifies_ints",
    "Verif.Outline.names_never_shown",
    "Verif.Outline.leaf_name_shown",
    "Verif.Outline.unknown_node",
    "Verif.Outline.outline_ambiguous"
   ],
   "note": "Reading back is proved for events printed on one line and different when printed (all integers, as in the miner); false otherwise (outline_ambiguous). The part on names is false: the recursive call drops map_ev, so names are never shown in the text of a pattern (names_never_shown)."
  },
  {
   "property": "C154",
   "status": "partial",
   "theorems": [
    "Verif.Outline.br_of_key",
    "Verif.Outline.br_injective",
    "Verif.Outline.br_broken",
    "Verif.Outline.br_short"
   ],
   "note": "Proved for all keys that l_to_key writes. False for other texts: an unreadable key has the name of the whole pattern (br_broken), a key with one number ends in an exception (br_short)."
  },
  {
   "property": "C155",
   "status": "partial",
   "theorems": [
    "Verif.Mdlp.features_alone",
    "Verif.Mdlp.frame_alone_partial",
    "Verif.Mdlp.repeated_names"
   ],
   "note": "Arrays: proved. Data frames: proved for distinct column names; with a repeated name fit succeeds and transform raises ValueError on the fitted frame (repeated_names). Values are rationals (no NaN), entropies exact reals."
  },
  {
   "property": "C156",
   "status": "proved",
   "theorems": [
    "Verif.Slim.table_as_transactions",
    "Verif.Slim.same_fit_same_answers",
    "Verif.Slim.cover_table_rows",
    "Verif.Slim.code_length_table_rows"
   ],
   "note": "New objects (no stored supports). The environment (orders of sets, gains) may depend on itemsets and counts only. Input checks (dtypes, missing values) are not modelled; sizes are parameters."
  },
  {
   "property": "C157",
   "status": "partial",
   "theorems": [
    "Verif.Slim.labels_select_rows",
    "Verif.Slim.nonzero_labels_ignored_partial",
    "Verif.Slim.labels_not_ignored",
    "Verif.Slim.too_many_labels"
   ],
   "note": "Fails on tables: rows with label zero are dropped (labels_not_ignored), although the docstring says y is not used. Proved instead: the fit is that on the rows with a non-zero label; without zero label y is ignored. On transactions y is not looked at."
  },
  {
   "property": "C158",
   "status": "partial",
   "theorems": [
    "Verif.Checks.verdict_right",
    "Verif.Checks.verdicts_alone",
    "Verif.Checks.option_kept_partial",
    "Verif.Checks.option_left_set",
    "Verif.Checks.option_taken_back"
   ],
   "note": "Verdicts: proved. The option of pandas is not left alone: use_inf_as_na stays True after a table with a missing or infinite value, because the raise comes before it is taken back (option_left_set), and an accepted table sets it to False even if the program had set it (option_taken_back)."
  },
  {
   "property": "C159",
   "status": "partial",
   "theorems": [
    "Verif.Slim.copy_fits_alike_partial",
    "Verif.Slim.copy_not_larger",
    "Verif.Slim.more_time_not_larger",
    "Verif.Slim.copy_knows_items",
    "Verif.Slim.copy_loses_limit"
   ],
   "note": "Fails with a time limit: __copy__ does not pass max_time on, the copy has no limit (copy_loses_limit). Proved without limit, or when the fit stays within it. Sizes are parameters."
  },
  {
   "property": "C160",
   "status": "partial",
   "theorems": [
    "Verif.Classify.predict_array",
    "Verif.Classify.predict_array_partial",
    "Verif.Classify.predict_array_smallest",
    "Verif.Classify.array_and_list_differ"
   ],
   "note": "Fails: fit reads the values of an array as items, predict reads the array as a binary table; with items that are not column numbers all samples get the smallest label (predict_array_smallest). Proved where the items of a row are the positions of its non-zero values."
  },
  {
   "property": "C161",
   "status": "partial",
   "theorems": [
    "Verif.Report.figures_right",
    "Verif.Report.printed_same_partial",
    "Verif.Report.printed_raises"
   ],
   "note": "Fails for strDetailed: it raises KeyError for every collection without a simple pattern (printed_raises). Proved for output_detailed, and for strDetailed when there is a simple pattern."
  },
  {
   "property": "C162",
   "status": "partial",
   "theorems": [
    "Verif.Classify.frame_fit_raises",
    "Verif.Classify.frame_values_ignored",
    "Verif.Classify.frame_transactions",
    "Verif.Classify.predict_frame",
    "Verif.Classify.predict_frame_smallest",
    "Verif.Classify.one_label_partial",
    "Verif.Classify.frame_and_list_differ"
   ],
   "note": "Fails: fit learns from the letters of the column names and never reads the values; it raises when a label has no column, and with names of several letters all samples get the smallest label. Proved for a single label."
  },
  {
   "property": "C163",
   "status": "partial",
   "theorems": [
    "Verif.Logs.dates_read_partial",
    "Verif.Logs.ints_read_partial",
    "Verif.Logs.lines_read_partial",
    "Verif.Logs.single_column",
    "Verif.Logs.bad_time_raises",
    "Verif.Logs.missing_words",
    "Verif.Logs.na_event_missing",
    "Verif.Logs.empty_line_shifts"
   ],
   "note": "Fails for events called NA, None, null and the like, which are read as missing (na_event_missing), and for files of single values with empty lines, where the index is not the line number (empty_line_shifts). Proved for words without separators, line ends, leading spaces and not among the words for missing values; read_csv is modelled after its documentation."
  },
  {
   "property": "C164",
   "status": "proved",
   "theorems": [
    "Verif.DataSeq.info_right",
    "Verif.DataSeq.info_empty",
    "Verif.DataSeq.dict_as_list"
   ],
   "note": "A dictionary without empty entries is treated as the list of its pairs (dict_as_list). The printed text is represented by its figures; layout and rounding to three digits are not modelled."
  },
  {
   "property": "C165",
   "status": "partial",
   "theorems": [
    "Verif.Graph.label_index",
    "Verif.Graph.node_label_partial",
    "Verif.Graph.label_index_at",
    "Verif.Graph.index_past_end",
    "Verif.Graph.index_before_start",
    "Verif.Graph.index_ignored"
   ],
   "note": "Fails out of bounds: an index past the end returns the whole tuple of labels (index_past_end), a negative one before the start is an IndexError, and with labels given as a string or a list the index is ignored (index_ignored). Proved for indices in bounds."
  },
  {
   "property": "C166",
   "status": "partial",
   "theorems": [
    "Verif.Slim.stop_fit_raises",
    "Verif.Slim.fit_knows_partial",
    "Verif.Slim.filtered_fit_partial",
    "Verif.Slim.fit_no_data"
   ],
   "note": "Fails: with stop_items, fit always raises, as it gives a generator to SLIM.fit (stop_fit_raises). Proved for transactions filtered before fit. The exception of scikit-learn's validation on a generator is modelled after its source."
  },
  {
   "property": "C167",
   "status": "partial",
   "theorems": [
    "Verif.Slim.batches_alike_partial",
    "Verif.Slim.batch_changes_row"
   ],
   "note": "Fails: the columns are chosen among the itemsets whose items occur in the batch, so that a transaction may have its pattern when it comes alone and no pattern beside another one (batch_changes_row). Proved for batches with the same items outside the stop items."
  },
  {
   "property": "C168",
   "status": "partial",
   "theorems": [
    "Verif.Describe.describe_figures",
    "Verif.Describe.density_partial",
    "Verif.Describe.density_above_one",
    "Verif.Describe.density_undefined"
   ],
   "note": "Fails for transactions with repeated items, whose density can be any positive integer (density_above_one), and for data without items. Proved for transactions without repeated items; means are exact rationals."
  },
  {
   "property": "C169",
   "status": "proved",
   "theorems": [
    "Verif.Describe.logs_right"
   ],
   "note": "Logs with at least one event; means are exact rationals, times integers."
  },
  {
   "property": "C170",
   "status": "proved",
   "theorems": [
    "Verif.Window.view_elements",
    "Verif.Window.view_exists",
    "Verif.Window.view_given_axes",
    "Verif.Window.view_repeated_axes",
    "Verif.Window.axis_refused",
    "Verif.Window.rows_of_list"
   ],
   "note": "Elements and bounds for all axes; the exact condition for raising is proved for default axes, for given axes that are different from one another and, without empty sizes, for repeated axes."
  },
  {
   "property": "C171",
   "status": "partial",
   "theorems": [
    "Verif.TopP.top_two",
    "Verif.TopP.top_ties",
    "Verif.TopP.ties_all",
    "Verif.TopP.positions_exist_partial",
    "Verif.TopP.second_missing"
   ],
   "note": "The positions returned do not exist in lists with less than two entries (second_missing). Proved for all other lists."
  },
  {
   "property": "C172",
   "status": "proved",
   "theorems": [
    "Verif.Slim.print_same_result",
    "Verif.Slim.print_lines",
    "Verif.Slim.print_decreases"
   ],
   "note": "A line with two sizes is represented by their sum; sizes are exact numbers."
  },
  {
   "property": "C173",
   "status": "proved",
   "theorems": [
    "Verif.Datasets.file_name",
    "Verif.Datasets.hidden_file_name",
    "Verif.Datasets.file_roundtrip"
   ],
   "note": "Paths of Linux; the file exists and is text."
  },
  {
   "property": "C174",
   "status": "partial",
   "theorems": [
    "Verif.Graph.table_lines_partial",
    "Verif.Graph.singleton_usage_iff",
    "Verif.Graph.singleton_usage_wrong"
   ],
   "note": "The column for the usage of a singleton contains its code length and the column for the code length is empty (singleton_usage_wrong, singleton_usage_iff). Everything else is proved."
  },
  {
   "property": "C175",
   "status": "proved",
   "theorems": [
    "Verif.LCM.lcm_separate",
    "Verif.LCM.lcmMax_of_lcm",
    "Verif.LCM.lcmMax_filter_maximal"
   ],
   "note": "Thresholds are absolute; the order of the rows is left open."
  },
  {
   "property": "C176",
   "status": "proved",
   "theorems": [
    "Verif.Filter.maximal_above",
    "Verif.Filter.maximal_pieces",
    "Verif.Filter.minimal_above",
    "Verif.Filter.minimal_pieces",
    "Verif.Filter.filter_again"
   ],
   "note": "Itemsets are sets, as in the calls in the library."
  },
  {
   "property": "C177",
   "status": "partial",
   "theorems": [
    "Verif.Mdlp.codes_in_use_partial",
    "Verif.Mdlp.codes_any",
    "Verif.Mdlp.code_unused"
   ],
   "note": "False when samples of equal value have different labels (code_unused). Proved otherwise, in exact arithmetic."
  },
  {
   "property": "C178",
   "status": "proved",
   "theorems": [
    "Verif.LCM.lcm_intersections",
    "Verif.LCM.lcm_common",
    "Verif.LCM.lcm_transactions",
    "Verif.LCM.lcmMax_transactions"
   ],
   "note": "Thresholds are absolute."
  },
  {
   "property": "C179",
   "status": "proved",
   "theorems": [
    "Verif.Clique.enumerations_agree",
    "Verif.Clique.bronKerbosch_order",
    "Verif.Clique.bronKerbosch_cover"
   ],
   "note": "Cliques are compared as sets of vertices."
  }
 ]
}
