{"id": "C01", "title": "LCM returns exactly the frequent closed itemsets", "statement": "LCM(min_supp).fit(D).transform(D) returns an itemset if and only if it is non-empty, it is closed in D (no further item of D that is itself frequent is shared by all the transactions containing it) and the number of transactions containing it is at least the minimum support. The transaction ids and the support reported on the row are exactly the positions of D containing the itemset and their number.", "quantifier": "for every transaction list D (any item type with equality, empty and repeated transactions, repeated items in a transaction) and every accepted minimum support", "why_tests_cant": "A test compares LCM with a known answer on a handful of databases; soundness and completeness of the prefix-preserving recursion is a statement about all databases.", "anchors": ["skmine/itemsets/lcm.py:LCM.fit", "skmine/itemsets/lcm.py:LCM.transform", "skmine/itemsets/lcm.py:LCM._inner"]}
{"id": "C02", "title": "LCM never repeats an itemset", "statement": "No itemset appears twice in the result of LCM.transform.", "quantifier": "for every transaction list and every accepted minimum support", "why_tests_cant": "Duplicates appear only for particular item orders and closures; a finite set of databases cannot rule them out.", "anchors": ["skmine/itemsets/lcm.py:LCM._inner", "skmine/itemsets/lcm.py:LCM.transform"]}
{"id": "C03", "title": "max_length only filters", "statement": "LCM.transform with max_length = n returns exactly those rows of the unrestricted result whose itemset has at most n items (same supports, same transaction ids, same relative order); with max_length = -1 nothing is dropped.", "quantifier": "for every transaction list, minimum support and every integer n", "why_tests_cant": "The bound is applied inside the recursion, so an itemset below the bound that is only reachable through one above it could be lost for some database.", "anchors": ["skmine/itemsets/lcm.py:LCM._inner"]}
{"id": "C04", "title": "LCMMax returns exactly the maximal frequent itemsets", "statement": "LCMMax(min_supp).fit(D).transform(D) returns an itemset if and only if it is non-empty, frequent, and no strict superset of it is frequent; each is returned once with its exact support.", "quantifier": "for every transaction list and every accepted minimum support", "why_tests_cant": "The pruned search plus the global maximality filter must agree with the definition on every database.", "anchors": ["skmine/itemsets/lcm.py:LCMMax._inner", "skmine/itemsets/lcm.py:LCMMax.transform", "skmine/utils.py:filter_maximal"]}
{"id": "C05", "title": "LCM does not depend on the order of the transactions", "statement": "Permuting the transactions of D, or the items inside a transaction, does not change the set of (itemset, support) pairs returned by LCM.", "quantifier": "for every transaction list and every permutation of it", "why_tests_cant": "Item indices, and with them the whole search tree, depend on the order of first appearance; invariance must hold for every permutation.", "anchors": ["skmine/itemsets/lcm.py:LCM.fit", "skmine/itemsets/lcm.py:LCM.transform"]}
{"id": "C06", "title": "Minimum support validation", "statement": "Constructing a miner with an integer minimum support is accepted iff it is at least 1, with a float iff it lies between 0 and 1 inclusive, and any other type is rejected with TypeError; when absolute supports are prohibited every integer is rejected. An accepted value of LCM is turned into an absolute threshold: integers unchanged, floats multiplied by the number of transactions.", "quantifier": "for every integer and every rational value, both settings of accept_absolute", "why_tests_cant": "Boundary decisions over an unbounded domain.", "anchors": ["skmine/utils.py:_check_min_supp", "skmine/itemsets/lcm.py:LCM.fit"]}
{"id": "C07", "title": "filter_maximal keeps exactly the maximal itemsets", "statement": "filter_maximal(itemsets) returns exactly the members of the input having no strict superset in the input, with their multiplicity, ordered by length.", "quantifier": "for every finite collection of sets, with repetitions and in any order", "why_tests_cant": "The code compares each itemset only with the maximal ones found so far; that this is enough is a transitivity argument over all collections.", "anchors": ["skmine/utils.py:filter_maximal"]}
{"id": "C08", "title": "filter_minimal keeps exactly the minimal itemsets", "statement": "filter_minimal(itemsets) returns exactly the members of the input having no strict subset in the input, with their multiplicity, ordered by length.", "quantifier": "for every finite collection of sets, with repetitions and in any order", "why_tests_cant": "As for C07.", "anchors": ["skmine/utils.py:filter_minimal"]}
{"id": "C09", "title": "intersect2d returns the common rows", "statement": "intersect2d(ar1, ar2) returns the sorted distinct rows present in both arrays, with for each the index of its first occurrence in ar1 and in ar2.", "quantifier": "for every pair of two-dimensional arrays with the same number of columns", "why_tests_cant": "The implementation intersects first columns only; whether rows are lost depends on collisions in the first column.", "anchors": ["skmine/utils.py:intersect2d"]}
{"id": "C10", "title": "bron_kerbosch enumerates the maximal cliques", "statement": "For the adjacency dict of an undirected graph, utils.bron_kerbosch yields every maximal clique of at least three vertices exactly once and nothing else.", "quantifier": "for every finite undirected simple graph and every dict order", "why_tests_cant": "Graph algorithms fail on particular graphs; the invariant on (clique, candidates, excluded) covers them all. A `depth > 20` cut-off exists in the code whose effect has to be settled for large graphs.", "anchors": ["skmine/utils.py:bron_kerbosch"]}
{"id": "C11", "title": "bronKerbosch3Plus enumerates the maximal cliques", "statement": "Run on all vertices of an undirected graph, the clique enumeration used to combine periodic patterns collects every maximal clique with more than two vertices exactly once and nothing else, whatever the iteration order of the vertex set.", "quantifier": "for every finite undirected simple graph and every iteration order at every recursion level", "why_tests_cant": "Set iteration order is unspecified; the result must hold for each.", "anchors": ["skmine/periodic/run_mine.py:bronKerbosch3Plus"]}
{"id": "C12", "title": "SLIM code tables are lossless after any history", "statement": "After prefit(D) and any sequence of update(candidate) calls with itemsets not yet in the code table (C17 is about the others), with pruning on or off, the cover stored in the code table is lossless: for every known item the transactions covered by the itemsets containing that item are exactly the transactions of D containing it, and no item occurrence is covered twice.", "quantifier": "for every database, every sequence of accepted candidates and every pruning decision", "why_tests_cant": "A history property: it depends on all sequences of updates.", "anchors": ["skmine/itemsets/slim.py:cover", "skmine/itemsets/slim.py:SLIM.update", "skmine/itemsets/slim.py:SLIM._prune", "skmine/itemsets/slim.py:SLIM.prefit"]}
{"id": "C13", "title": "SLIM.cover splits each transaction into disjoint known itemsets", "statement": "SLIM.cover(D') returns one row per transaction of D'; the itemsets marked true in a row are pairwise disjoint, included in the transaction, and their union is the set of the items of the transaction known to the model.", "quantifier": "for every fitted model and every new database, including unseen items and empty transactions", "why_tests_cant": "Greedy cover order interacts with overlaps between patterns; needs an induction over the code table.", "anchors": ["skmine/itemsets/slim.py:SLIM.cover", "skmine/itemsets/slim.py:cover"]}
{"id": "C14", "title": "SLIM.fit makes the total size strictly decrease and stops", "statement": "Every candidate accepted by SLIM.fit strictly decreases data size + model size, so the size reported after fit is never larger than after prefit, and the greedy loop terminates.", "quantifier": "for every database, every candidate order, every tie-breaking and every time limit that is never reached", "why_tests_cant": "Termination cannot be tested.", "anchors": ["skmine/itemsets/slim.py:SLIM.fit", "skmine/itemsets/slim.py:SLIM.evaluate", "skmine/itemsets/slim.py:SLIM.update"]}
{"id": "C15", "title": "SLIM pruning never worsens the code table and terminates", "statement": "Post-pruning returns a code table whose total size is at most that of the table it was given, never removes a singleton, keeps the cover lossless, and terminates.", "quantifier": "for every code table and every order in which candidates of equal usage are examined", "why_tests_cant": "Depends on the set iteration order and on all code tables.", "anchors": ["skmine/itemsets/slim.py:SLIM._prune"]}
{"id": "C16", "title": "SLIM.reconstruct gives the data back", "statement": "After fit(D), reconstruct() returns the transactions of D, each as the sorted list of its distinct items, in the original order.", "quantifier": "for every database and every fitting history", "why_tests_cant": "Round-trip over all databases, including empty transactions at the end.", "anchors": ["skmine/itemsets/slim.py:SLIM.reconstruct"]}
{"id": "C17", "title": "SLIM.update with an itemset already in the table does not lose data", "statement": "Calling update(candidate) with an itemset that is already in the code table leaves a lossless code table.", "quantifier": "for every database, code table and candidate of the table", "why_tests_cant": "Interactive use allows any candidate at any time; needs all histories.", "anchors": ["skmine/itemsets/slim.py:SLIM.update", "skmine/itemsets/slim.py:SLIM.evaluate", "skmine/itemsets/slim.py:cover"]}
{"id": "C18", "title": "SLIM.get_support answers for the data of the last fit", "statement": "get_support(items) returns the number of transactions of the most recently fitted database that contain all the given items.", "quantifier": "for every sequence of fits and queries on one object", "why_tests_cant": "The function is memoised; the answer depends on the history of the object.", "anchors": ["skmine/itemsets/slim.py:SLIM.get_support"]}
{"id": "C19", "title": "SLIM candidates are fresh, co-used and ordered by estimated gain", "statement": "Each call of generate_candidates returns distinct itemsets, each the union of two itemsets of the code table used together in at least one transaction, never considered before, with positive estimated gain and in non-increasing order of it; conversely every such union with positive gain on its first examination is returned.", "quantifier": "for every code table, every history of calls and every enumeration order", "why_tests_cant": "Memory across calls (the stack of seen unions) makes it a history property.", "anchors": ["skmine/itemsets/slim.py:SLIM.generate_candidates"]}
{"id": "C20", "title": "SLIM.prefit accepts only itemsets consistent with the data and starts from singletons", "statement": "After prefit(D) the code table contains exactly one singleton per item of D (or per item given in `items`), with usage the transactions containing it.", "quantifier": "for every database and item list", "why_tests_cant": "Universally quantified over databases.", "anchors": ["skmine/itemsets/slim.py:SLIM.prefit", "skmine/itemsets/slim.py:_to_vertical"]}
{"id": "C21", "title": "SlimClassifier predicts the class with the shortest code", "statement": "predict returns for each transaction a class of the training labels whose model gives the highest score (shortest code); among equals the smallest class label. Training splits the data: every training transaction is seen by exactly the model of its own class, in order.", "quantifier": "for every training set, label vector and query", "why_tests_cant": "Tie-breaking and the class split are quantified over all label vectors.", "anchors": ["skmine/itemsets/slim_classifier.py:SlimClassifier.fit", "skmine/itemsets/slim_classifier.py:SlimClassifier.predict"]}
{"id": "C22", "title": "SlimClassifier honours its pruning parameter", "statement": "The models trained by SlimClassifier(pruning=b) are SLIM models with pruning=b.", "quantifier": "for both values of b and every training set", "why_tests_cant": "Shows as a difference only on data where pruning matters.", "anchors": ["skmine/itemsets/slim_classifier.py:SlimClassifier.fit"]}
{"id": "C23", "title": "SLIMVectorizer output shape and content", "statement": "transform returns one row per transaction and at most k columns; with strategy one-hot a cell is 1 iff the column's itemset covers the row, itemsets covering one row are disjoint subsets of the row, and no column contains a stop item.", "quantifier": "for every fitted vectorizer, every new database, every k and every stop list", "why_tests_cant": "Universally quantified over data, k and stop items.", "anchors": ["skmine/feature_extraction/slim_vectorizer.py:SLIMVectorizer.transform"]}
{"id": "C24", "title": "border_diff computes the difference of two borders", "statement": "For a set U and a non-empty list of sets S, border_diff(U, S) returns (L, U) where a subset of U is above some member of L iff it is contained in no member of S, and L is an antichain (the minimal such subsets).", "quantifier": "for every finite U and every non-empty list S", "why_tests_cant": "Iterated minimal-transversal computation; correctness is an induction on S.", "anchors": ["skmine/emerging/mbdldorber.py:border_diff"]}
{"id": "C25", "title": "MBD-LLBorder borders separate the two collections", "statement": "After fit, for every border (L, U), a subset of U lying above some member of L is frequent in the second collection at the raised threshold and not frequent in the first one; and every such itemset lies in some border.", "quantifier": "for every pair of transaction collections, growth rate and minimum support", "why_tests_cant": "Composition of maximal itemset mining, maximal intersections and border differences over all databases.", "anchors": ["skmine/emerging/mbdldorber.py:mbdllborder", "skmine/emerging/mbdldorber.py:MBDLLBorder.fit"]}
{"id": "C26", "title": "MBDLLBorder.discover returns only emerging patterns", "statement": "Every pattern returned by discover has a support ratio between the two collections above min_growth_rate, i.e. it belongs to the border (L, U) it was drawn from.", "quantifier": "for every pair of collections, growth rate, minimum support and minimum size", "why_tests_cant": "The accept test looks plausible on examples; needs all databases.", "anchors": ["skmine/emerging/mbdldorber.py:borders_to_patterns", "skmine/emerging/mbdldorber.py:MBDLLBorder.discover"]}
{"id": "C27", "title": "MDLP cut points are increasing and separate observed values", "statement": "fit terminates; for each column the cut points are strictly increasing, and each is the midpoint of two consecutive values of the sorted column between samples of different classes, strictly inside the observed range or equal to a repeated value.", "quantifier": "for every numeric column, label vector and every outcome of the entropy comparisons", "why_tests_cant": "Entropy decisions are data dependent floats; the structure must hold whatever they are.", "anchors": ["skmine/preprocessing/mdlp_discretizer.py:MDLPVectDiscretizer.fit", "skmine/preprocessing/mdlp_discretizer.py:generate_cut_point"]}
{"id": "C28", "title": "MDLP transform is monotone and uses each column's own cut points", "statement": "transform maps a value to the number of cut points of its column that are strictly smaller; hence it is monotone in each column and takes at most (number of cut points + 1) values. A DataFrame with the fitted columns in another order gets the same codes per column name.", "quantifier": "for every fitted discretizer and every input matrix or DataFrame", "why_tests_cant": "Quantified over all column orders and values.", "anchors": ["skmine/preprocessing/mdlp_discretizer.py:MDLPDiscretizer.transform"]}
{"id": "C29", "title": "Callbacks do not change results", "statement": "After attaching callbacks to a miner, each hooked method returns the same value as before for the same arguments, and each call of the method triggers its callback exactly once with that value; attaching a callback for a missing method raises and leaves the miner unchanged.", "quantifier": "for every sequence of attachments and calls, every callback behaviour (normal return, TypeError, other exception)", "why_tests_cant": "Depends on the number of attachments and on the exceptions raised by user code.", "anchors": ["skmine/callbacks.py:post", "skmine/callbacks.py:CallBacks.__call__", "skmine/callbacks.py:CallBacks.__init__"]}
{"id": "C30", "title": "get_params / set_params", "statement": "set_params(**get_params()) changes nothing; after set_params(k=v) get_params()[k] is v and other parameters are unchanged; a call with an unknown name raises ValueError and leaves the estimator unchanged.", "quantifier": "for every parameter state and every sequence of (name, value) pairs in any order", "why_tests_cant": "Atomicity depends on the position of the bad name among the others.", "anchors": ["skmine/base.py:BaseMiner.get_params", "skmine/base.py:BaseMiner.set_params"]}
{"id": "C31", "title": "Synthetic transactions and class datasets have the requested shape", "statement": "make_transactions(n_transactions, n_items, density) returns n_transactions transactions without repeated items, all drawn from range(n_items). make_classification returns n_samples labelled transactions.", "quantifier": "for every parameter combination and every outcome of the random generator", "why_tests_cant": "Random draws are unbounded.", "anchors": ["skmine/datasets/_samples_generator.py:make_transactions", "skmine/datasets/_samples_generator.py:make_classification"]}
{"id": "C32", "title": "FIMI files are read line by line", "statement": "Reading a .dat file returns one transaction per line, each the list of the integers of the line, in order; writing transactions one per line and reading them back is the identity.", "quantifier": "for every list of non-empty transactions of non-negative integers", "why_tests_cant": "Round trip over all files.", "anchors": ["skmine/datasets/fimi.py:_read_dat"]}
{"id": "C33", "title": "Automatic time scaling is exactly invertible and maximal", "statement": "Time scaling of PeriodicPatternMiner replaces the timestamps t by t / (10^n * d) with n <= 9 and d in {1, 60, 3600, 86400}, exactly: converted * 10^n * d = original for every timestamp; and no larger n (then no larger d) of this form divides all the timestamps.", "quantifier": "for every non-empty array of 64-bit integers, including negative and all-zero ones", "why_tests_cant": "Arithmetic over all integers.", "anchors": ["skmine/periodic/cycles.py:autoscale_time_unit", "skmine/periodic/cycles.py:_shift_from_nano_to_sec", "skmine/periodic/cycles.py:shift_from_sec_to_upper_unit"]}
{"id": "C34", "title": "Shift corrections reproduce the occurrences exactly", "statement": "For a pattern tree, computing the corrections E from a list of occurrence times (in tree order) and then regenerating the occurrences from the first time and E gives back the same times.", "quantifier": "for every pattern tree in which every block starts with its first element (any nesting, repetitions at least 1, any inter-block distances and periods) and every list of occurrence times of the right length", "why_tests_cant": "Structural induction over trees; tests cover a few shapes.", "anchors": ["skmine/periodic/pattern.py:Pattern.computeEFromO", "skmine/periodic/pattern.py:Pattern.getOccs", "skmine/periodic/pattern.py:Pattern.getOccsRefs", "skmine/periodic/pattern.py:Pattern.gatherCorrKeys"]}
{"id": "C35", "title": "Occurrence counts of a pattern agree", "statement": "The number of occurrences reported by a pattern equals the number of occurrences it generates, all position keys are distinct, the events generated are those of the leaves, and with no correction the times are t0 plus the tree offsets.", "quantifier": "for every pattern tree", "why_tests_cant": "Structural induction.", "anchors": ["skmine/periodic/pattern.py:Pattern.getNbOccs", "skmine/periodic/pattern.py:Pattern.cardO", "skmine/periodic/pattern.py:Pattern.getOccsStar", "skmine/periodic/pattern.py:Pattern.getAlphabet"]}
{"id": "C36", "title": "Periodic mining is lossless", "statement": "After fit, the occurrences covered by the selected patterns together with the residuals are exactly the (deduplicated) events of the input series, and no residual is covered by a pattern.", "quantifier": "for every series of events and every set of patterns selected whose occurrences belong to the data", "why_tests_cant": "Set identity over all data.", "anchors": ["skmine/periodic/cycles.py:PeriodicPatternMiner.reconstruct", "skmine/periodic/cycles.py:PeriodicPatternMiner.get_residuals", "skmine/periodic/pattern_collection.py:PatternCollection.getUncoveredOccs"]}
{"id": "C37", "title": "Exported patterns can be imported back", "statement": "import_patterns(export_patterns()) restores patterns that generate the same occurrences.", "quantifier": "for every fitted miner", "why_tests_cant": "Round trip over all pattern collections; JSON turns integer keys into strings.", "anchors": ["skmine/periodic/cycles.py:PeriodicPatternMiner.export_patterns", "skmine/periodic/cycles.py:PeriodicPatternMiner.import_patterns", "skmine/periodic/cycles.py:_iterdict_str_to_int_keys"]}
{"id": "C38", "title": "Pattern selection is a cost-efficient cover", "statement": "The final selection contains distinct candidates; each selected candidate covers, when selected, at least min_cov occurrences not covered by earlier ones, and its cost is below the cost of transmitting those occurrences one by one; hence the total cost of the selection never exceeds that of sending the covered occurrences individually.", "quantifier": "for every list of candidates, cost table and minimum coverage", "why_tests_cant": "Greedy loop with in-place updates; needs an invariant over all candidate lists.", "anchors": ["skmine/periodic/run_mine.py:filter_candidates_cover", "skmine/periodic/candidate.py:Candidate.isEfficient", "skmine/periodic/candidate.py:Candidate.updateUncovered"]}
{"id": "C39", "title": "Dynamic programming segmentation is optimal", "statement": "For a single event with n >= 3 occurrences, the segmentation found by dynamic programming covers positions 0..n-1 by consecutive segments, and its total cost (cost of a cycle for segments of at least three occurrences, residual cost per other occurrence) is minimal among all such segmentations.", "quantifier": "for every occurrence list and every cycle-cost function", "why_tests_cant": "Optimality over exponentially many segmentations.", "anchors": ["skmine/periodic/extract_cycles.py:compute_table_dyn", "skmine/periodic/extract_cycles.py:recover_splits_rec"]}
{"id": "C40", "title": "Merging sorted candidate ids", "statement": "Merging two lists of candidate ids sorted by (start, period, repetitions) gives a list sorted in the same way holding all ids of both.", "quantifier": "for every property table and every two sorted lists", "why_tests_cant": "Loop with in-place insertion; induction over both lists.", "anchors": ["skmine/periodic/class_patterns.py:mergeSortedPids", "skmine/periodic/class_patterns.py:sortPids"]}
{"id": "C41", "title": "Occurrence keys round-trip", "statement": "Turning a list of (child, repetition) pairs into a key and back gives the same list; different lists have different keys.", "quantifier": "for every non-empty list of pairs of integers", "why_tests_cant": "String encoding over unbounded integers.", "anchors": ["skmine/periodic/class_patterns.py:l_to_key", "skmine/periodic/class_patterns.py:key_to_l"]}
{"id": "C42", "title": "GraphMDL cover describes every edge and every vertex label exactly once", "statement": "After covering a data graph with a code table, every labelled edge and every vertex label of the graph is covered by exactly one used pattern embedding or singleton.", "quantifier": "for every data graph, every list of code table rows and every embedding list order", "why_tests_cant": "Greedy marking over all graphs and rows.", "anchors": ["skmine/graph/graphmdl/code_table.py:CodeTable.row_cover", "skmine/graph/graphmdl/code_table.py:CodeTable.singleton_cover", "skmine/graph/graphmdl/code_table.py:CodeTable.cover"]}
{"id": "C43", "title": "Image-based support of a graph pattern", "statement": "The support computed from the list of embeddings of a pattern is the minimum over pattern vertices of the number of distinct images (minimum image based support).", "quantifier": "for every list of embeddings", "why_tests_cant": "Quantified over all embedding lists, including single embeddings.", "anchors": ["skmine/graph/graphmdl/utils.py:get_support"]}
{"id": "C44", "title": "Binomial coefficients", "statement": "binomial(n, k) is the binomial coefficient for 0 <= k <= n, and raises ValueError for k > n.", "quantifier": "for all natural n, k", "why_tests_cant": "All integers.", "anchors": ["skmine/graph/graphmdl/utils.py:binomial"]}
{"id": "C45", "title": "The universal integer encoding is a valid code length", "statement": "The lengths returned by the universal integer encoding of the positive integers (and of the naturals for the variant with zero) satisfy Kraft's inequality, i.e. are the lengths of a prefix code, and are non-decreasing in the integer.", "quantifier": "for all positive integers", "why_tests_cant": "An infinite sum.", "anchors": ["skmine/graph/graphmdl/utils.py:universal_integer_encoding", "skmine/graph/graphmdl/utils.py:universal_integer_encoding_with0"]}
{"id": "C46", "title": "GraphMDL search only accepts improvements", "statement": "Each pattern kept in the code table during the search strictly decreases the description length; the final description length is never above the initial one; a second fit on the same object behaves as a first fit.", "quantifier": "for every graph, every candidate sequence and every timeout", "why_tests_cant": "History property across fits and candidate sequences.", "anchors": ["skmine/graph/graphmdl/graph_mdl.py:GraphMDL.fit", "skmine/graph/graphmdl/graph_mdl.py:GraphMDL._anytime_graph_mdl_with_timeout"]}
{"id": "C47", "title": "Equality of graph candidates is an equivalence", "statement": "Equality between merge candidates is reflexive, symmetric and transitive, and inverting a candidate does not alter the original.", "quantifier": "for every pair of candidates and port lists", "why_tests_cant": "Quantified over all port lists.", "anchors": ["skmine/graph/graphmdl/candidate.py:Candidate.__eq__", "skmine/graph/graphmdl/candidate.py:Candidate._is_ports_equals", "skmine/graph/graphmdl/candidate.py:Candidate.inverse"]}
{"id": "C48", "title": "Label totals of a graph", "statement": "The total number of labels of a graph is the number of vertex labels plus the number of edge labels, per label and overall.", "quantifier": "for every labelled graph", "why_tests_cant": "Depends on label collisions between vertices and edges.", "anchors": ["skmine/graph/graphmdl/utils.py:get_total_label", "skmine/graph/graphmdl/utils.py:count_edge_label", "skmine/graph/graphmdl/utils.py:count_vertex_label"]}
{"id": "C49", "title": "Writing LCM results to a file gives the same itemsets", "statement": "With an output file, LCM writes for every itemset of the in-memory result one line holding the itemset, and the same in-memory content can be read back in the same order, whatever the number of roots that yield nothing.", "quantifier": "for every database and minimum support", "why_tests_cant": "Per-root files are concatenated; roots with no result leave empty files.", "anchors": ["skmine/itemsets/lcm.py:LCM.transform", "skmine/itemsets/lcm.py:LCM.write_df_tofile"]}
{"id": "C50", "title": "Factorising a pattern tree preserves what it describes", "statement": "Factorising children that all have one child and share period and repetition yields a tree with the same number of occurrences and the same multiset of (time, event) pairs generated without corrections.", "quantifier": "for every pattern tree that can be factorised, at any node, every block starting with its first element", "why_tests_cant": "Structural reasoning over all trees.", "anchors": ["skmine/periodic/pattern.py:Pattern.factorizeTree", "skmine/periodic/pattern.py:Pattern.canFactorize"]}
{"id": "C51", "title": "Events are numbered one to one", "statement": "Building a data sequence numbers the distinct events by their sorted rank, keeps all (time, event) pairs, and lists them in chronological order; the number-to-event map inverts the numbering.", "quantifier": "for every list or dict of timed events", "why_tests_cant": "All inputs.", "anchors": ["skmine/periodic/data_sequence.py:DataSequence.__init__", "skmine/periodic/data_sequence.py:DataSequence.getNumToEv"]}
{"id": "C52", "title": "The candidate pool keeps one candidate per pattern key", "statement": "Adding candidates to the pool gives consecutive distinct ids, never two candidates with the same (minor key, major key), and never drops a candidate already present.", "quantifier": "for every sequence of additions and resets", "why_tests_cant": "History property.", "anchors": ["skmine/periodic/candidate_pool.py:CandidatePool.addCand", "skmine/periodic/candidate_pool.py:CandidatePool.addCands"]}
{"id": "C53", "title": "A row of SLIM.cover depends only on its own transaction", "statement": "Covering new data with a fitted SLIM gives each transaction the greedy cover of that transaction by the itemsets of the code table in table order; the row and the code length of a transaction do not depend on the other transactions passed in the same call.", "quantifier": "for every fitted model, every new database and every transaction in it", "why_tests_cant": "Independence from the rest of the batch is a statement over all batches.", "anchors": ["skmine/itemsets/slim.py:SLIM.cover", "skmine/itemsets/slim.py:SLIM.get_code_length"]}
{"id": "C54", "title": "Transactions with a known item have a finite code length", "statement": "get_code_length gives a finite positive length to every transaction that contains at least one item of the training data, and infinity to every transaction that contains none.", "quantifier": "for every fitted model and every new database", "why_tests_cant": "Quantifies over all models, including degenerate ones.", "anchors": ["skmine/itemsets/slim.py:SLIM.get_code_length"]}
{"id": "C55", "title": "Event frequencies form a probability distribution", "statement": "For a nonempty data sequence the frequency of each event is its share of the occurrences; the frequencies sum to one, and the adjusted frequencies of events plus the two block delimiters also sum to one.", "quantifier": "for every nonempty data sequence", "why_tests_cant": "Sums over arbitrary many events; tests check a few sequences.", "anchors": ["skmine/periodic/class_patterns.py:makeOccsAndFreqsThird", "skmine/periodic/data_sequence.py:DataSequence.__init__"]}
{"id": "C56", "title": "Candidate rows stay sorted", "statement": "After any number of group additions the sorted order kept by the pool lists every property row exactly once, in nondecreasing order of start, period and repetition.", "quantifier": "for every sequence of group additions and resets", "why_tests_cant": "Depends on every interleaving of additions.", "anchors": ["skmine/periodic/candidate_pool.py:CandidatePool.addCands", "skmine/periodic/candidate_pool.py:CandidatePool.getSortedPids"]}
{"id": "C57", "title": "Slicing sorted candidates keeps exactly those under the bound", "statement": "Slicing candidates sorted by a column by a maximum value returns exactly the candidates whose value is at most the bound, whatever the slice size.", "quantifier": "for every nonempty sorted list, positive slice size and bound", "why_tests_cant": "Off-by-one errors depend on how the bound falls relative to slice boundaries.", "anchors": ["skmine/periodic/run_mine.py:getPidsSlice"]}
{"id": "C58", "title": "Cycle extraction partitions the occurrences", "statement": "The cycles extracted by dynamic programming from the occurrences of one event are runs of at least three consecutive occurrences, and cycles and residual together hold each occurrence exactly once, also when the sequence is processed by overlapping blocks.", "quantifier": "for every list of distinct occurrence times and every cost function", "why_tests_cant": "Block boundaries beyond 200 occurrences are not reached by unit tests.", "anchors": ["skmine/periodic/extract_cycles.py:compute_cycles_dyn", "skmine/periodic/extract_cycles.py:combine_splits"]}
{"id": "C59", "title": "A concatenated periodic pattern describes its own occurrences", "statement": "When two or more periodic patterns are concatenated into one, regenerating the occurrences from the new tree, the first time and the new corrections gives the occurrences of the parts, interleaved repetition by repetition.", "quantifier": "for all lists of patterns to concatenate, with any corrections, periods, numbers of repetitions and starting repetitions", "why_tests_cant": "Needs all tree shapes and all correction values; the usual tests concatenate single-event cycles only.", "anchors": ["skmine/periodic/run_mine.py:prepare_candidate_concats", "skmine/periodic/candidate.py:Candidate.getBlocksO", "skmine/periodic/candidate.py:Candidate.getBlocksE", "skmine/periodic/pattern.py:Pattern.getCovSeq"]}
{"id": "C60", "title": "Residuals of selected patterns", "statement": "get_residuals(ids) returns the events of the data that are not generated by the patterns with these ids, each exactly once.", "quantifier": "for every series, every list of patterns and every selection of ids", "why_tests_cant": "The answer depends on how rows of two tables line up, which a test on one table cannot exercise.", "anchors": ["skmine/periodic/cycles.py:PeriodicPatternMiner.get_residuals", "skmine/periodic/cycles.py:PeriodicPatternMiner.reconstruct"]}
{"id": "C61", "title": "Covering a graph does not depend on earlier covers", "statement": "The pattern occurrences and singletons that a GraphMDL code table uses to cover a data graph are the same whether or not the same graph object was covered before, by this or by another code table.", "quantifier": "for every data graph, every list of rows and every history of earlier covers", "why_tests_cant": "Covers leave marks on the shared graph object; the property quantifies over all histories.", "anchors": ["skmine/graph/graphmdl/code_table.py:CodeTable.cover", "skmine/graph/graphmdl/code_table.py:CodeTable.is_edge_marked", "skmine/graph/graphmdl/code_table.py:CodeTable.is_node_marked"]}
{"id": "C62", "title": "A nested periodic pattern describes its own occurrences", "statement": "When periodic patterns with equal bodies are nested into patterns of patterns, the search ends without exception, and regenerating the occurrences of every new pattern from its tree, its first time and its corrections gives the occurrences, and the events, of the patterns it nests, one after the other. The patterns reported as covered are exactly existing ones and include all the nested ones.", "quantifier": "for all lists of patterns with equal bodies, whatever cycles are found among their start times at every level, and any costs", "why_tests_cant": "Needs all tree shapes, all depths of nesting and all correction values.", "anchors": ["skmine/periodic/run_mine.py:nest_cmplx", "skmine/periodic/run_mine.py:prepare_candidate_nested", "skmine/periodic/run_mine.py:prepare_tree_nested"]}
{"id": "C63", "title": "Nesting loses no cycle of patterns", "statement": "Every cycle of patterns found while nesting is kept for the final selection unless it is itself nested in a larger one.", "quantifier": "for all groups of patterns, all start times and all cycles found among them", "why_tests_cant": "Whether something is lost depends on the order in which cycles are found compared with their start times.", "anchors": ["skmine/periodic/run_mine.py:nest_cmplx"]}
{"id": "C64", "title": "Equal keys mean equal patterns", "statement": "Two patterns with the same key are the same pattern; two candidates with the same minor key have the same body; two candidates that the pool takes for duplicates (same minor and major keys) describe the same occurrences.", "quantifier": "for all patterns with integer events, all periods, distances (negative ones too) and repetitions", "why_tests_cant": "Injectivity of a textual encoding over all trees.", "anchors": ["skmine/periodic/pattern.py:Pattern.pattKey", "skmine/periodic/pattern.py:Pattern.pattMinorKey", "skmine/periodic/pattern.py:Pattern.pattMajorKey", "skmine/periodic/candidate.py:Candidate.getMinorKey", "skmine/periodic/candidate.py:Candidate.getMajorKey"]}
{"id": "C65", "title": "Chains and triples of occurrences found by the fold search are real", "statement": "The search for cycles by folding ends, and every chain it reports has at least four occurrences, in increasing order, taken from the occurrences given, at the positions it reports; any three consecutive ones of a chain, and the three of a triple, have nearly equal gaps (the difference of the two gaps is below the bound) and gaps below the maximal period; each reported chain and triple passed the test on its cost.", "quantifier": "for all lists of occurrences, all bounds, all maximal periods and all costs", "why_tests_cant": "The search mixes a two-sided scan, tables of already seen periods and a following of links; soundness must hold for every spacing of the occurrences and for every length.", "anchors": ["skmine/periodic/extract_cycles.py:extract_cycles_fold", "skmine/periodic/extract_cycles.py:extract_cycles_fold_sub"]}
{"id": "C66", "title": "Chains found by the fold search do not repeat", "statement": "No two chains of the fold search share an inner link (two consecutive occurrences, the first of which is not the first of the chain), and no triple is reported that continues inside a chain.", "quantifier": "for all strictly increasing lists of fewer than 2000 occurrences, all bounds and costs", "why_tests_cant": "Depends on the order in which links are taken out of the tables, for every spacing of occurrences.", "anchors": ["skmine/periodic/extract_cycles.py:extract_cycles_fold_sub"]}
{"id": "C67", "title": "The period chosen minimises the total correction", "statement": "The period computed from at least two occurrence times is the rounded down median of the gaps between consecutive occurrences, and no other whole number gives a smaller sum of absolute differences to the gaps. Fewer than two occurrences give an error.", "quantifier": "for all lists of occurrence times", "why_tests_cant": "Optimality compares with every other period, and rounding down a median of an even number of gaps is only optimal by an argument over all gap lists.", "anchors": ["skmine/periodic/class_patterns.py:computePeriodDiffs", "skmine/periodic/class_patterns.py:computePeriod"]}
{"id": "C68", "title": "Merging lists of cycles keeps the cheapest of each kind", "statement": "Merging several lists of cycles returns cycles of the lists only; for every cycle given, exactly one cycle with the same first occurrence, number of occurrences and period is returned, and it is not more costly.", "quantifier": "for all lists of lists of non-empty cycles and all costs", "why_tests_cant": "The merge works on sorted keys with ties between lists; it must hold for every mix of equal keys and costs.", "anchors": ["skmine/periodic/run_mine.py:merge_cycle_lists"]}
{"id": "C69", "title": "The best candidates for each occurrence are kept", "statement": "Filtering candidates to the best k for each occurrence keeps all of them if there are at most k; otherwise a candidate is kept exactly if one of its occurrences appears at most k times in the better candidates that are kept; every occurrence appears more than k times in the kept ones or is lost from none.", "quantifier": "for all candidates, cost ratios and k", "why_tests_cant": "Whether a candidate is kept depends on the ones kept before it; the guarantee is for each occurrence and each order of the ratios.", "anchors": ["skmine/periodic/run_mine.py:filter_candidates_topKeach", "skmine/periodic/candidate.py:satisfiesMaxCountCover"]}
{"id": "C70", "title": "Initial candidates of an event are cycles of the event", "statement": "On increasing occurrence times the search for initial candidates of an event succeeds; every candidate is made of at least three of the occurrences in their order, with the best period for these; no two candidates agree in first occurrence, number of occurrences and period; cycles of the dynamic program are all represented before the final filter.", "quantifier": "for all increasing lists of occurrence times and all costs", "why_tests_cant": "Joins dynamic programming, fold search, merging and filtering; failure in any junction depends on the spacing and the costs.", "anchors": ["skmine/periodic/run_mine.py:extract_cycles_alpha", "skmine/periodic/run_mine.py:mine_cycles_alpha"]}
{"id": "C71", "title": "Mining simple cycles succeeds, invents nothing and loses nothing", "statement": "fit with complex=False ends without an error; every occurrence generated by a pattern is in the series; each selected pattern covers at least three occurrences not covered before, at a lower cost than these on their own; reconstruct and get_residuals together give exactly the rows of the series.", "quantifier": "for all series, with or without automatic time scale, and all costs", "why_tests_cant": "The whole pipeline from the series to the patterns, for every series, order of rows and cost function.", "anchors": ["skmine/periodic/cycles.py:PeriodicPatternMiner.fit", "skmine/periodic/run_mine.py:mine_seqs", "skmine/periodic/run_mine.py:filter_candidates_cover"]}
{"id": "C72", "title": "One price per cycle", "statement": "A cycle costs the same whether it is priced as a cycle or as the pattern of one repeated event made from it; the short formula for three occurrences gives the price of the cycle recorded for them.", "quantifier": "for all events, occurrence times within the window of the data and periods", "why_tests_cant": "Equality of two formulas in real logarithms with floors and sums of corrections; tests compare rounded values on a few cycles.", "anchors": ["skmine/periodic/class_patterns.py:computeLengthCycle", "skmine/periodic/class_patterns.py:cost_triple", "skmine/periodic/pattern.py:Pattern.codeLength", "skmine/periodic/run_mine.py:extract_cycles_alpha"]}
{"id": "C73", "title": "The code length of a pattern is the cost of sending it", "statement": "For a pattern whose occurrences are distinct occurrences of the data, the code length is defined (no logarithm of zero or of a negative number, no upper bound exceeded), not negative, and equal to: the logarithms of the inverse frequencies of its events and brackets, plus for each number to send (repetitions, period, start, duration, inner periods and distances) the logarithm of how many values it may take, plus two bits and the absolute value for each correction; each number sent is one of the values allowed for it.", "quantifier": "for all data, trees of any depth and width, starts and corrections", "why_tests_cant": "Depth and width of patterns are unbounded, and the bounds on inner periods depend on corrections accumulated along the tree; a bound one too small is visible only on patterns that touch it.", "anchors": ["skmine/periodic/pattern.py:Pattern.codeLength", "skmine/periodic/pattern.py:Pattern.codeLengthEvents", "skmine/periodic/pattern.py:Pattern.codeLengthR", "skmine/periodic/pattern.py:Pattern.codeLengthPDs", "skmine/periodic/pattern.py:Pattern.codeLengthT0"]}
{"id": "C74", "title": "Code lengths can be achieved by a decodable code", "statement": "For fixed data, over any finite set of distinct patterns of the data two to the minus code length sums to at most one (Kraft's inequality), so at most 2^b patterns cost at most b bits; the same holds for the costs of single occurrences.", "quantifier": "for all data and all finite sets of patterns", "why_tests_cant": "A statement over sets of all patterns: no finite sample of patterns can refute a code that is too short by a little.", "anchors": ["skmine/periodic/pattern.py:Pattern.codeLength", "skmine/periodic/class_patterns.py:cost_one"]}
{"id": "C75", "title": "The code length of a collection", "statement": "The code length of a collection is the sum of the code lengths of its patterns and of the costs of the occurrences left uncovered; adding a pattern adds its code length and takes off the costs of the occurrences that it is the first to cover; with no pattern it is the code length of the data on its own.", "quantifier": "for all data and all lists of patterns of the data", "why_tests_cant": "Uncovered occurrences depend on all patterns together; overlaps and duplicates make the sums differ only for some collections.", "anchors": ["skmine/periodic/pattern_collection.py:PatternCollection.codeLength", "skmine/periodic/data_sequence.py:DataSequence.codeLengthResiduals"]}
{"id": "C76", "title": "Kinds of patterns, events and main timestamps", "statement": "Every pattern has exactly one of the kinds simple, nested, concat or other, as documented: simple is one cycle of one event, nested is several cycles inside each other around one event, concat is one cycle of several events; the report counts each pattern of the collection once, under its kind. The events of a pattern are aligned with its occurrence times, one per occurrence; the main timestamps are the first occurrences of the repetitions of its outer cycle.", "quantifier": "for all well-formed pattern trees, collections and lists of occurrences", "why_tests_cant": "Trees are unbounded in depth and width; the classification by depth and width must exclude every other shape.", "anchors": ["skmine/periodic/pattern.py:Pattern.getTypeStr", "skmine/periodic/pattern.py:Pattern.getEventsMinor", "skmine/periodic/pattern.py:Pattern.getMajorOccs", "skmine/periodic/pattern_collection.py:PatternCollection.strDetailed"]}
{"id": "C77", "title": "Factorising a candidate keeps its occurrences", "statement": "The factorised versions proposed for a candidate pattern (a cycle of concatenated cycles of equal length and period is turned into one cycle of the concatenation) describe exactly the same event occurrences as the candidate, with the same outer length and period; their recorded corrections and occurrences agree with their own tree. Every place of the pattern where a factorisation is possible gives one of the versions, unless two occurrences of the pattern would be at the same place.", "quantifier": "for all candidates whose occurrences and corrections have the lengths of their tree, of any depth and width", "why_tests_cant": "The factorisation is recursive and permutes the occurrences of arbitrary trees; a test sees a few shapes.", "anchors": ["skmine/periodic/candidate.py:Candidate.factorizePattern", "skmine/periodic/pattern.py:Pattern.factorizeTree", "skmine/periodic/pattern.py:Pattern.canFactorize", "skmine/periodic/run_mine.py:substitute_factorized"]}
{"id": "C78", "title": "Complex mining never raises and its candidates come from the data", "statement": "Mining complex patterns from a series in the order of time never raises. Every candidate considered at any time is a regular tree repeated at least three times, with one correction per occurrence but the first, and all its occurrences, with their events, are occurrences of the series. The patterns returned are distinct candidates; each, in the order of the list, covers at least three occurrences not covered by those before it, and costs less than these occurrences on their own.", "quantifier": "for all series in the order of time, all costs, all iteration orders of sets and any number of rounds of combination", "why_tests_cant": "Rounds of combination build trees of any depth and width out of each other; a test sees a few data sets and one order of iteration.", "anchors": ["skmine/periodic/cycles.py:PeriodicPatternMiner.fit", "skmine/periodic/run_mine.py:mine_seqs", "skmine/periodic/run_mine.py:run_combine_vertical", "skmine/periodic/run_mine.py:run_combine_horizontal", "skmine/periodic/candidate_pool.py:CandidatePool"]}
{"id": "C79", "title": "Patterns mined with complex=True lose nothing and invent nothing", "statement": "The patterns returned by the complex miner generate occurrences of the series only; the rows of reconstruct() and get_residuals() together are exactly the rows of the series, none twice.", "quantifier": "for all series in the order of time, all costs and all iteration orders of sets", "why_tests_cant": "Errors appear only for trees of certain shapes, made in a second round of combination for certain data.", "anchors": ["skmine/periodic/cycles.py:PeriodicPatternMiner.fit", "skmine/periodic/cycles.py:PeriodicPatternMiner.reconstruct", "skmine/periodic/run_mine.py:mine_seqs", "skmine/periodic/run_mine.py:prepare_candidate_concats"]}
{"id": "C80", "title": "Complex mining ends", "statement": "The rounds of combination of the complex miner end after a number of rounds that depends on the series only: from then on there is no new candidate and the result no longer changes.", "quantifier": "for all series in the order of time, all costs and all iteration orders of sets", "why_tests_cant": "Candidates are combined with each other again and again, and the loop has no bound in the code; that it ends on some data says nothing about other data or other costs.", "anchors": ["skmine/periodic/run_mine.py:mine_seqs", "skmine/periodic/run_mine.py:run_combine_vertical", "skmine/periodic/run_mine.py:run_combine_horizontal"]}
{"id": "C81", "title": "Merging two graph patterns glues them at the ports", "statement": "The pattern made from a candidate has the vertices of the first pattern and those of the second, each port of the second identified with its partner in the first and no other vertices identified; its edges and vertex labels are those of the two patterns, and nothing else. It occurs wherever the two patterns occur together sharing exactly the ports. The result can be merged again, so everything the search builds from singletons is a pattern of this kind.", "quantifier": "for all pairs of patterns of any size, all lists of ports without repetition, directed graphs and directed multigraphs", "why_tests_cant": "The numbering of new vertices, the mapping of ports and the three cases for edges interact; a test compares a few small merges drawn by hand.", "anchors": ["skmine/graph/graphmdl/candidate.py:Candidate.merge_candidate", "skmine/graph/graphmdl/candidate.py:Candidate.create_candidate_first_pattern", "skmine/graph/graphmdl/candidate.py:Candidate.create_candidate_second_pattern", "skmine/graph/graphmdl/candidate.py:Candidate._get_new_label"]}
{"id": "C82", "title": "The description length of a merged graph pattern is defined", "statement": "The labels of every pattern made by merging can be counted, so that its description length is defined and the search does not raise.", "quantifier": "for all pairs of patterns and all ports", "why_tests_cant": "The failure needs a vertex with three labels, built up by two merges.", "anchors": ["skmine/graph/graphmdl/candidate.py:Candidate._get_new_label", "skmine/graph/graphmdl/utils.py:count_vertex_label", "skmine/graph/graphmdl/utils.py:encode"]}
{"id": "C83", "title": "The rewritten graph and the code table determine the data graph", "statement": "Reading the rewritten graph left by the cover with the patterns of the code table (each node stands for its pattern, vertices attached to the same port are the same vertex) gives back the data graph up to the names of its vertices: the same labelled edges and the same vertex labels, and no two vertices of the description that stand for one data vertex.", "quantifier": "for all data graphs, all code tables and all embeddings, whatever was covered before", "why_tests_cant": "A vertex shared by two embeddings must be a port of both, which depends on degrees, on labels and on the order of all rows; a test compares the rewritten graph of one example.", "anchors": ["skmine/graph/graphmdl/code_table.py:CodeTable.cover", "skmine/graph/graphmdl/code_table.py:CodeTable.search_port", "skmine/graph/graphmdl/code_table.py:CodeTable.create_rewrite_edge", "skmine/graph/graphmdl/code_table.py:CodeTable.create_pattern_node", "skmine/graph/graphmdl/code_table.py:CodeTable.rewritten_graph"]}
{"id": "C84", "title": "The prequential code length is that of an adaptive code", "statement": "The prequential code length computed from a list of counts is the length of the adaptive code (each symbol coded with the frequencies seen so far, each started at epsilon) of any sequence with these counts; it does not depend on the order of the counts, is never negative, is zero for a single symbol, and over all sequences of a length the weights 2^-length sum to one.", "quantifier": "for all lists of counts, all sequences with these counts, all positive epsilon", "why_tests_cant": "A test compares one value; that the value is the same for every order and leaves no waste is a statement about all sequences.", "anchors": ["skmine/graph/graphmdl/utils.py:prequential_code", "skmine/graph/graphmdl/utils.py:log2"]}
{"id": "C85", "title": "The description length of the rewritten graph is the length of a message", "statement": "After a cover, the description length of the rewritten graph is the length of a message from which it can be rebuilt: number of nodes and ports, number of edges of every node, then kinds of the nodes, ends and labels of the edges with the prequential code of how often each occurs. In particular it does not depend on how the vertices of a pattern are numbered.", "quantifier": "for all data graphs, all code tables and embeddings, whatever was covered before", "why_tests_cant": "The value mixes several counts of one cover; which of them enters the sum is not visible in one number.", "anchors": ["skmine/graph/graphmdl/code_table.py:CodeTable.compute_rewritten_graph_description", "skmine/graph/graphmdl/code_table.py:CodeTable.row_cover", "skmine/graph/graphmdl/code_table.py:CodeTable.singleton_cover"]}
{"id": "C86", "title": "Code lengths of the patterns of a code table", "statement": "After a cover, the code length of a pattern in use is -log2 of its share among the nodes of the rewritten graph, a row not in use has length 0, and over the patterns in use (rows, vertex singletons, edge singletons) the weights 2^-length sum to one; the port code lengths of a row are those of the shares of its ports.", "quantifier": "for all data graphs, all code tables and embeddings, whatever was covered before", "why_tests_cant": "That the lengths belong to a code without waste is a statement about all usages at once, and the loss when a label is both a vertex and an edge label does not show in the usual examples.", "anchors": ["skmine/graph/graphmdl/code_table_row.py:CodeTableRow.compute_code_length", "skmine/graph/graphmdl/code_table.py:CodeTable._compute_singleton_code", "skmine/graph/graphmdl/code_table.py:CodeTable._compute_usage_sum"]}
{"id": "C87", "title": "The patterns returned are the patterns in use", "statement": "After fitting, the patterns returned are exactly the rows and the singletons that describe some part of the graph in the last cover, each once.", "quantifier": "for all data graphs, all code tables and embeddings", "why_tests_cant": "Code length 0 is used as a sign for 'not in use', which only goes wrong for graphs described by one pattern.", "anchors": ["skmine/graph/graphmdl/graph_mdl.py:GraphMDL.patterns", "skmine/graph/graphmdl/utils.py:create_singleton_pattern", "skmine/graph/graphmdl/code_table.py:CodeTable.is_ct_edge_singleton"]}
{"id": "C88", "title": "The description length of a pattern is the length of a message for it", "statement": "The description length of a pattern with labels of the data is the length of a message with the number of vertices and, for every label, its code, the number of places it is at and which places; over any list of different patterns, or of rows with different patterns or port sets, the weights 2^-length sum to at most one, so the lengths belong to a code.", "quantifier": "for all data graphs, all patterns with string or tuple labels of the data, all lists of different patterns", "why_tests_cant": "The Kraft inequality is a statement about all patterns at once; a single value looks plausible even when lengths can be negative.", "anchors": ["skmine/graph/graphmdl/utils.py:encode", "skmine/graph/graphmdl/label_codes.py:LabelCodes", "skmine/graph/graphmdl/code_table_row.py:CodeTableRow.compute_description_length"]}
{"id": "C89", "title": "The description of a code table is the sum over its patterns", "statement": "After a cover, the description length of the code table is the sum of the description lengths of the patterns in use with their ports, whether a pattern is a row or a singleton.", "quantifier": "for all data graphs, all code tables and embeddings, whatever was covered before", "why_tests_cant": "Rows and singletons are described by different functions; that they agree on every label is not visible in one total.", "anchors": ["skmine/graph/graphmdl/code_table.py:CodeTable.compute_ct_description_length", "skmine/graph/graphmdl/code_table.py:CodeTable._compute_singleton_description_length", "skmine/graph/graphmdl/utils.py:encode_singleton"]}
{"id": "C90", "title": "The merge candidates are the pairs of patterns that meet", "statement": "After a cover, generating candidates succeeds; every candidate is realised by two different nodes of the rewritten graph that meet exactly at its ports, every two nodes that meet realise a candidate, no candidate is listed twice, its data ports are the ports where its realisations meet, and its two patterns are those its labels stand for.", "quantifier": "for all data graphs and code tables with embeddings, whatever was covered before, all orders in which sets are listed", "why_tests_cant": "Completeness and the merging of equal candidates concern all pairs of nodes of all rewritten graphs; the order of a set changes between runs.", "anchors": ["skmine/graph/graphmdl/utils.py:generate_candidates", "skmine/graph/graphmdl/candidate.py:Candidate", "skmine/graph/graphmdl/utils.py:get_two_nodes_all_port", "skmine/graph/graphmdl/utils.py:get_port_candidates", "skmine/graph/graphmdl/utils.py:create_singleton_pattern"]}
{"id": "C91", "title": "The estimated usage of a candidate is an upper bound", "statement": "The estimated usage of a candidate is at least the number of its realisations in the rewritten graph that can be used together, i.e. that have no node in common.", "quantifier": "for all data graphs and code tables, all candidates generated after a cover, all sets of disjoint realisations", "why_tests_cant": "An estimate is only useful for ranking if it never falls below what can be achieved; examples do not show the worst case.", "anchors": ["skmine/graph/graphmdl/utils.py:generate_candidates", "skmine/graph/graphmdl/candidate.py:Candidate", "skmine/graph/graphmdl/utils.py:compute_candidate_usage", "skmine/graph/graphmdl/utils.py:compute_pattern_usage"]}
{"id": "C92", "title": "The exclusive ports of a candidate are its own", "statement": "The number of exclusive ports of a candidate is the number of its data ports that no other candidate generated with it has.", "quantifier": "for all data graphs and code tables, all candidates generated after a cover", "why_tests_cant": "The count is taken while earlier candidates of the list have already been altered by the usage estimate; whether this matters depends on the whole list.", "anchors": ["skmine/graph/graphmdl/utils.py:generate_candidates", "skmine/graph/graphmdl/candidate.py:Candidate", "skmine/graph/graphmdl/utils.py:is_candidate_port_exclusive", "skmine/graph/graphmdl/candidate.py:Candidate.inverse"]}
{"id": "C93", "title": "A pattern built step by step has the events one expects", "statement": "Starting from an empty pattern, from an event with a repetition, or from a dictionary of nodes: appending an event adds it, for every repetition of the anchor, at the given distance from the start of the anchor's last child, and changes nothing else; merging another pattern adds its events in the same way; repeating a pattern repeats its events shifted by the period. Events appended one after the other and then repeated occur at the distances given. Renaming the events by a table changes the events and not the times, and raises only when the table lacks an event. None of the other operations raises, and an anchor that is not an inner node stands for the root.", "quantifier": "for all patterns reachable or given as a dictionary that describes a tree, all events, distances, anchors, periods, repetitions, all patterns merged in", "why_tests_cant": "Nodes are stored in one dictionary under numbers that are chosen by the operations and rewritten when patterns are merged; that no two nodes ever share a number is a property of all sequences of operations.", "anchors": ["skmine/periodic/pattern.py:Pattern.__init__", "skmine/periodic/pattern.py:Pattern.append", "skmine/periodic/pattern.py:Pattern.merge", "skmine/periodic/pattern.py:Pattern.repeat", "skmine/periodic/pattern.py:Pattern.getTranslatedNodes", "skmine/periodic/pattern.py:Pattern.mapEvents"]}
{"id": "C94", "title": "Combining patterns never mixes up their nodes", "statement": "When candidates are concatenated or nested while mining, the pattern made for the combination is the tree of the combination: its children are those of the parts with their distances, and every node number belongs to one node. This holds for every sequence of combinations and factorisations that starts from cycles.", "quantifier": "for all candidates, all sequences of concatenations, nestings and factorisations, all periods, lengths and distances", "why_tests_cant": "The parts are renumbered with offsets that reuse one number per part on purpose; whether two nodes ever get the same number depends on the order of keys in dictionaries made by all earlier steps.", "anchors": ["skmine/periodic/run_mine.py:prepare_candidate_concats", "skmine/periodic/run_mine.py:prepare_tree_nested", "skmine/periodic/candidate.py:Candidate.getTranslatedPNodes", "skmine/periodic/pattern.py:Pattern.getTranslatedNodes"]}
{"id": "C95", "title": "Factorising a pattern yields the factorised tree", "statement": "The node numbers reported as factorisable are those of the nodes of the tree where all of at least two children have one child and the same period and length; factorising at such a number changes the dictionary into one of the factorised tree, without unused or missing nodes.", "quantifier": "for all patterns whose dictionary describes a tree, all nodes reported", "why_tests_cant": "Nodes are deleted from a dictionary that other nodes refer to by number; that no reference is left dangling concerns all shapes of trees.", "anchors": ["skmine/periodic/pattern.py:Pattern.canFactorize", "skmine/periodic/pattern.py:Pattern.factorizeTree"]}
{"id": "C96", "title": "The discretizer computes the discretization of Fayyad and Irani", "statement": "The cut points of a column are the midpoints at the positions where recursive splitting cuts the samples sorted by value: each interval is cut at the first position whose class entropy is least among all positions, exactly when the information gain exceeds the minimum description length threshold (log2(N-1) + log2(3^k-2) - (k E - k1 E1 - k2 E2)) / N. Positions between equal labels need not be examined: they are never first best.", "quantifier": "for all samples and labels, all numbers of classes", "why_tests_cant": "That no skipped position can be better is a concavity fact about entropy for all label sequences; the threshold uses 64 bit powers of three, which only fail for many classes.", "anchors": ["skmine/preprocessing/mdlp_discretizer.py:generate_cut_point", "skmine/preprocessing/mdlp_discretizer.py:get_entropy_nb_ones", "skmine/preprocessing/mdlp_discretizer.py:MDLPVectDiscretizer.evaluate", "skmine/preprocessing/mdlp_discretizer.py:MDLPVectDiscretizer.fit"]}
{"id": "C97", "title": "Cut points do not depend on the random state", "statement": "Fitting the same data with another random state gives the same cut points.", "quantifier": "for all data, all shuffles of the rows, all orders of equal values", "why_tests_cant": "A test fixes one random state and compares one or two runs; the claim is about all permutations.", "anchors": ["skmine/preprocessing/mdlp_discretizer.py:MDLPDiscretizer.fit", "skmine/preprocessing/mdlp_discretizer.py:MDLPVectDiscretizer.fit"]}
{"id": "C98", "title": "The sizes of SLIM are code lengths", "statement": "After fitting, or after prefit and any updates, data size plus model size is the number of bits of the data written with the code table: each transaction as the codes of the itemsets covering it, the code of an itemset having minus the logarithm of its share of the uses as length; and the table, each itemset in use written item by item with the codes of the items in the data, then its code. These lengths satisfy the Kraft equality, and no prefix code of the itemsets gives fewer data bits.", "quantifier": "for all transaction lists with an item, all sequences of updates with new candidates, with or without pruning, all runs of fit", "why_tests_cant": "The sizes are computed from usages and item counters; that they are the length of an actual encoding, and the shortest one, is a statement about all tables and all codes.", "anchors": ["skmine/itemsets/slim.py:_log2", "skmine/itemsets/slim.py:SLIM.prefit", "skmine/itemsets/slim.py:SLIM._compute_sizes", "skmine/itemsets/slim.py:SLIM.update"]}
{"id": "C99", "title": "The estimated gain of a SLIM candidate is the number of bits saved", "statement": "For two itemsets of the code table used together, the gain estimated for their union is the decrease of the total size when the union takes over the transactions in which both are used; so a candidate is dropped only if it would not pay.", "quantifier": "for all transaction lists, all reachable code tables, all pairs of itemsets used together", "why_tests_cant": "Tests see which candidates come out on a few data sets, not whether the estimate is right for all tables.", "anchors": ["skmine/itemsets/slim.py:SLIM.generate_candidates", "skmine/itemsets/slim.py:SLIM.fit"]}
{"id": "C100", "title": "Embeddings of a graph pattern are its occurrences", "statement": "The embeddings returned for a pattern in a data graph are exactly the maps of its vertices to different vertices of the data such that every label of a vertex is a label of its image and every edge goes to an edge with the same label. The automorphisms of a graph are its label preserving bijections, and comparing two graphs does not depend on their order.", "quantifier": "for all data graphs and multigraphs, all patterns the search can make, all maps", "why_tests_cant": "Tests count embeddings in a few graphs; that no occurrence is missed or invented is a statement about all graphs and all maps.", "anchors": ["skmine/graph/graphmdl/utils.py:get_embeddings", "skmine/graph/graphmdl/utils.py:_node_match", "skmine/graph/graphmdl/utils.py:_edge_match", "skmine/graph/graphmdl/utils.py:_edge_match_for_multigraph", "skmine/graph/graphmdl/utils.py:is_isomorphic", "skmine/graph/graphmdl/utils.py:get_automorphisms"]}
{"id": "C101", "title": "The smartphone events loaded for a user are those of the log, at their times", "statement": "The series loaded for a user has, for every application use in the log of that user, an event at its time if it lasted less than a minute, otherwise an event for the start and one for the end at their times, in the order of time, each once per minute; only kinds of events at least `min_occ` times in the log are kept, and a start is kept exactly if its end is.", "quantifier": "for all logs, all users, all thresholds", "why_tests_cant": "The loader is excluded from the tests and needs a download; the statement is about all logs.", "anchors": ["skmine/datasets/periodic.py:parse_all_user", "skmine/datasets/periodic.py:read_ubiq_user", "skmine/datasets/periodic.py:fetch_ubiq"]}
{"id": "C102", "title": "Callbacks that modify the miner are refused and a collection of callbacks is immutable", "statement": "Creating a collection of callbacks fails exactly if a value cannot be called or modifies attributes of the miner it is given; a collection that was created never changes.", "quantifier": "for all collections of callbacks, all source texts, all methods of dicts", "why_tests_cant": "Tests try one callback with an assignment and one method; the statement is about all source texts and all ways of changing a dict.", "anchors": ["skmine/callbacks.py:has_self_assigment", "skmine/callbacks.py:CallBacks._check", "skmine/callbacks.py:CallBacks.__init__", "skmine/callbacks.py:CallBacks._frozen"]}
{"id": "C103", "title": "Every pattern GraphMDL tests or keeps occurs in the data graph", "statement": "Whatever the search does, a pattern that GraphMDL tests, or that is in the code table of a fitted GraphMDL, occurs in the data graph: its vertices can be sent to different vertices of the data so that all its vertex labels and its edges are found there. More precisely, wherever two pieces of the data meet the way a merge candidate says, the merged pattern occurs at that place, on vertices that include all the ports of the two pieces; so the row of the pattern has at least one embedding.", "quantifier": "for all data graphs, all tables the search can have, all earlier covers, all candidates generated from a cover and all pairs of pieces that meet like the candidate", "why_tests_cant": "The claim is about every pattern built along every run of the search, and needs cover, rewritten graph, candidate generation and merging to agree; a test looks at the patterns of a few graphs, and no test has a loop, a label shared by vertices and edges, or a label that looks like a vertex name.", "anchors": ["skmine/graph/graphmdl/graph_mdl.py:GraphMDL.fit", "skmine/graph/graphmdl/graph_mdl.py:GraphMDL.patterns", "skmine/graph/graphmdl/code_table.py:CodeTable.cover", "skmine/graph/graphmdl/utils.py:generate_candidates", "skmine/graph/graphmdl/candidate.py:Candidate.final_pattern"]}
{"id": "C104", "title": "The table of periodic patterns determines the patterns, in the unit of the data", "statement": "The table returned by PeriodicPatternMiner.transform with dE_sum=False says everything about the selected patterns: two selections with the same table are equal, because the printed pattern determines repetitions, periods, distances and events. Start, period, printed times and corrections are all in the unit of the data.", "quantifier": "for all selections of patterns, all names of events, all time scales, integer times and dates", "why_tests_cant": "Tests compare a few printed patterns; whether two different patterns can be printed alike, and whether the columns agree in their unit for every scale, are statements about all patterns and scales.", "anchors": ["skmine/periodic/pattern.py:Pattern.__str__", "skmine/periodic/pattern_collection.py:PatternCollection.output_pattern_list_and_cost", "skmine/periodic/cycles.py:PeriodicPatternMiner.transform"]}
{"id": "C105", "title": "GraphMDL.fit ends", "statement": "GraphMDL.fit ends, by returning or by an exception, on every data graph with at most one edge from one vertex to another and string labels on the edges, with or without a timeout, also on an object fitted before. In particular the search without a timeout cannot add and remove rows forever, and it cannot find new candidates forever.", "quantifier": "for all such data graphs, all orders of ties, sets and embeddings, all readings of a clock that does not go back, all earlier uses of the object", "why_tests_cant": "A test can only see that fit ended on its input, within the time given to the test; no bound on the number of steps is known in advance, and each merged pattern can give further candidates.", "anchors": ["skmine/graph/graphmdl/graph_mdl.py:GraphMDL.fit", "skmine/graph/graphmdl/graph_mdl.py:GraphMDL._anytime_graph_mdl_with_timeout", "skmine/graph/graphmdl/graph_mdl.py:GraphMDL._pruning", "skmine/graph/graphmdl/utils.py:generate_candidates"]}
{"id": "C106", "title": "draw_pattern draws the pattern of the table, in the unit of the data", "statement": "After transform, PeriodicPatternMiner.draw_pattern(i) returns a drawing of the pattern of row i of the table: one box per inner node with its period and repetitions (and the start at the root), one ellipse per leaf with the name of its event, solid edges from each inner node to its children in order, a dotted edge with the distance from each child to the next, and nothing else. All times are in the unit of the data. The drawing determines the pattern: two patterns with the same drawing have the same start, repetitions, periods, distances and event names. There is an error when there is no row i.", "quantifier": "all histories of fit and transform calls, all patterns (trees of any depth and width, any numbering of the nodes), all factors taken out by the time scaling, integer and date indexes, all names of events", "why_tests_cant": "Tests look at a few drawings; that every tree can be read back from its drawing, for every numbering and every scaling, is a statement about all trees.", "anchors": ["skmine/periodic/cycles.py: PeriodicPatternMiner.draw_pattern", "skmine/periodic/pattern.py: draw_pattern, draw_pattern_rec"]}
{"id": "C107", "title": "A periodic miner answers for its last fit or import", "statement": "A PeriodicPatternMiner can be used for several series and several files. Whatever was called before, the answers of reconstruct, get_residuals, transform, export_patterns and draw_pattern after a fit or an import_patterns are those of a new miner with the same parameters on which only this fit or import was called. Asking questions (also asking for the table, exporting or drawing) does not change later answers.", "quantifier": "all sequences of set_params, fit, import_patterns, transform, export_patterns, reconstruct, get_residuals and draw_pattern calls, all series and files, all results of the mining", "why_tests_cant": "Tests use a fresh miner for each case; leftovers of earlier calls show up only in sequences of calls, of which there are infinitely many.", "anchors": ["skmine/periodic/cycles.py: PeriodicPatternMiner.fit, transform, export_patterns, import_patterns, reconstruct, get_residuals, draw_pattern"]}
{"id": "C108", "title": "Printed summary of the patterns of a graph", "statement": "After GraphMDL.fit, discover() prints a summary: the table, the patterns that are not single labels under 'Non singleton patterns found', and the single labels in use under 'Singleton patterns found', each label once. It does not raise, and lists each pattern under the title it belongs to. The text of a pattern (display_graph, also evaluated in fit for each pattern that is accepted) exists for every pattern the search can make, has one line per edge, and tells the pattern: two patterns with the same text are the same up to the numbering of the vertices.", "quantifier": "all data graphs, tables and patterns the search can reach, all texts of the labels, all orders in which the set of patterns is listed", "why_tests_cant": "The tests print the summary of no fitted miner; whether every pattern can be displayed and whether two texts can agree is a statement on all patterns.", "anchors": ["skmine/graph/graphmdl/utils.py: display_graph, _get_node_labels", "skmine/graph/graphmdl/graph_mdl.py: GraphMDL.discover, GraphMDL.patterns", "skmine/graph/graphmdl/code_table.py: CodeTable.display_ct", "skmine/graph/graphmdl/code_table_row.py: CodeTableRow.display_row"]}
{"id": "C109", "title": "Fetched datasets are the right ones, also from the folder on disk", "statement": "A fetch function returns the data of its address, whatever was fetched before; once it has returned data, it returns the same data again without the network. A folder given as data_home may not exist yet. With return_y, data and classes have one element per transaction, and each transaction is its class item together with its element of the data.", "quantifier": "all sequences of calls of the fetch functions, folders and file names, all contents of the servers, which may change or be down at any call", "why_tests_cant": "The tests replace the server by fixed files and make one call; the statement is about sequences of calls and all contents.", "anchors": ["skmine/datasets/fimi.py: fetch_any, fetch_chess, fetch_connect, fetch_mushroom, fetch_pumsb, fetch_pumsb_star, fetch_kosarak, fetch_retail, fetch_accidents, fetch_iris, fetch_breast, fetch_tictactoe", "skmine/datasets/periodic.py: fetch_health_app, fetch_canadian_tv", "skmine/datasets/_base.py: get_data_home"]}
{"id": "C110", "title": "An LCM object answers for its last fit", "statement": "LCM and LCMMax objects can be fitted and asked any number of times. Whatever was called before, transform returns the closed (maximal) frequent itemsets of the data of the last fit that succeeded, for min_supp at the time of this fit, with their supports in these data; a fit that raises changes nothing, transform before a fit raises NotFittedError. The data given to transform do not influence the result (as documented), and options can be given by position or by name. fit_transform raises only for data without transactions and invalid supports.", "quantifier": "all sequences of fit, transform and changes of min_supp, all data as lists or Series, all options", "why_tests_cant": "The statement is about all sequences of calls and all data.", "anchors": ["skmine/itemsets/lcm.py: LCM.fit, LCM.transform, LCMMax.transform", "skmine/base.py: TransformerMixin.fit_transform"]}
{"id": "C111", "title": "A SLIM object answers for its last fit", "statement": "A SLIM object can be fitted, updated and asked any number of times. Whatever was called before, fit ends and its code table covers the data of this fit without loss. The code table, as returned by transform, is in the documented standard cover order of the data of the last fit (longer itemsets first, then those contained in more transactions, then lexicographically), and it is the one a new object would have found.", "quantifier": "all sequences of prefit, fit, update and get_support, all data, all sizes, all iteration orders", "why_tests_cant": "The statement is about all sequences of calls and all data.", "anchors": ["skmine/itemsets/slim.py: SLIM.fit, SLIM.prefit, SLIM.update, SLIM.get_support, SLIM._standard_cover_order, SLIM.transform, SLIM.cover"]}
{"id": "C112", "title": "SLIM.fit ends in a local optimum", "statement": "When SLIM.fit returns without having been stopped by max_time, its code table cannot be improved by one more step: for any two itemsets of the table used together in a transaction whose union is not in the table, adding the union does not decrease the total size, unless the estimated gain of this union was not positive.", "quantifier": "all data, all sizes and estimated gains, all iteration orders, with and without pruning", "why_tests_cant": "The statement is about all data and all pairs of itemsets of the final table.", "anchors": ["skmine/itemsets/slim.py: SLIM.fit, SLIM.generate_candidates, SLIM.evaluate"]}
{"id": "C113", "title": "The usages of a fitted SLIM are those of its own cover", "statement": "After SLIM.fit(D), on a new or reused object, every transaction of D is covered greedily by the itemsets of the code table in the order of the table, and SLIM.cover(D) marks in each row exactly the itemsets whose usage lists that transaction. The same holds after prefit and any number of update(candidate) with itemsets that are not in the table. The table is determined by its itemsets: two histories on the same data ending with the same itemsets end with the same order and usages.", "quantifier": "all data, all sizes, gains and iteration orders, all stored supports, all histories of updates with new itemsets, with and without pruning", "why_tests_cant": "Usages are maintained incrementally by covers, pruning and dictionary updates; a test compares them with a fresh cover on a few data sets only.", "anchors": ["skmine/itemsets/slim.py: SLIM.fit, SLIM.update, SLIM.evaluate, SLIM._prune, SLIM.cover, cover"]}
{"id": "C114", "title": "SLIM does not depend on the order of the transactions", "statement": "When two new SLIM objects with the same settings get the same calls (prefit, fit, update, get_support), one with the data D and the other with the same non-empty transactions in another order (with items repeated or listed in another order inside a transaction, and with more or fewer empty transactions), then transform lists the same itemsets in the same order with the transactions renamed accordingly, the total sizes are equal, and cover and get_code_length give the same results on any data.", "quantifier": "all data, all reorderings, all sequences of calls, with and without pruning; all sizes, gains and iteration orders that depend on the itemsets and the numbers of their transactions only (the exact sizes do)", "why_tests_cant": "A test compares a few permutations of a few data sets.", "anchors": ["skmine/itemsets/slim.py: SLIM.fit, SLIM.prefit, SLIM.update, SLIM.transform, SLIM.cover, SLIM.get_code_length, _to_vertical"]}
{"id": "C115", "title": "SlimClassifier depends neither on the order of the training samples nor on the other samples to classify", "statement": "SlimClassifier.fit(X, y).predict(Q) gives the same labels when the labelled training transactions are listed in another order or their items are repeated or reordered. The label of a transaction of Q depends only on that transaction: predicting all of Q is predicting each transaction in a call of its own.", "quantifier": "all training data, all reorderings, all transactions to classify, all score functions; all sizes, gains and iteration orders of SLIM that depend on itemsets and counts only", "why_tests_cant": "A test compares a few permutations of a few training sets.", "anchors": ["skmine/itemsets/slim_classifier.py: SlimClassifier.fit, SlimClassifier.predict", "skmine/itemsets/slim.py: SLIM.decision_function"]}
{"id": "C116", "title": "Simple cycles do not depend on the origin of times", "statement": "Take a series in time order and auto_time_scale=False. If every time of the series is moved by the same amount, mining simple cycles finds the same patterns in the same order, with the same periods, repetitions and corrections, each starting later by that amount. The rows given by reconstruct for any choice of patterns are the same rows moved by that amount, and so are the occurrences left over.", "quantifier": "all series of integer times in non-decreasing order, all displacements (positive or negative), all costs that do not see the origin of times, and the costs of the code over exact real numbers", "why_tests_cant": "A test compares a few series at a few displacements; absolute times enter the grouping of events, the splits, the triples, the chains, the sorts and the greedy selection, and one use of an absolute time in any of them shows only on some series.", "anchors": ["skmine/periodic/cycles.py:PeriodicPatternMiner.fit", "skmine/periodic/cycles.py:PeriodicPatternMiner.reconstruct", "skmine/periodic/run_mine.py:mine_cycles_alpha", "skmine/periodic/extract_cycles.py:extract_cycles_fold_sub", "skmine/periodic/data_sequence.py:DataSequence"]}
{"id": "C117", "title": "The discretizer depends neither on the units of the features nor on the numbers of the classes", "statement": "Fit MDLPDiscretizer with a fixed random state. If every feature is replaced by a strictly increasing function of itself, fit_transform gives the same codes. If the functions are changes of unit (a x + b with a > 0), the new cut points are the old cut points in the new unit, and transform gives the same codes for all new data in the new unit. If the classes are renumbered one to one, the cut points do not change.", "quantifier": "all non-empty data sets, all families of strictly increasing functions (one per feature), all injective renumberings of the classes, all shuffles, all sorts that only compare values", "why_tests_cant": "A test tries a few functions on a few data sets; ties, cut points that coincide and values equal to a cut point behave differently, and a comparison of a raw value with a constant shows only in some units.", "anchors": ["skmine/preprocessing/mdlp_discretizer.py:MDLPDiscretizer.fit", "skmine/preprocessing/mdlp_discretizer.py:MDLPDiscretizer.transform", "skmine/preprocessing/mdlp_discretizer.py:MDLPVectDiscretizer.fit", "skmine/preprocessing/mdlp_discretizer.py:get_entropy_nb_ones"]}
{"id": "C118", "title": "Emerging patterns do not depend on the order of the data", "statement": "Fit MBDLLBorder on labelled transactions, then fit it again after reordering the transactions with their labels, and reordering or repeating items inside transactions. Both fits raise the same exception or give the same borders (same right sides, same sets on the left), and for every min_size discover raises the same exception or returns the same patterns, each listed as often. Only the order of the results can differ. The iteration order of sets has no more effect than that.", "quantifier": "all labelled data sets with as many labels as transactions, all rearrangements of them, all iteration orders of sets in each of the two runs, all thresholds and growth rates, all min_size", "why_tests_cant": "A test sees one iteration order of sets per process and a few permutations; the borders are built by products of set differences whose intermediate results do depend on the order.", "anchors": ["skmine/emerging/mbdldorber.py:MBDLLBorder.fit", "skmine/emerging/mbdldorber.py:MBDLLBorder.discover", "skmine/emerging/mbdldorber.py:border_diff", "skmine/emerging/mbdldorber.py:mbdllborder", "skmine/emerging/mbdldorber.py:borders_to_patterns"]}
{"id": "C119", "title": "LCM does not depend on the names of the items, and a higher threshold only filters", "statement": "Rename the items one to one and run LCM or LCMMax again with the same options: the rows are the same with the items renamed, with the same supports and transaction ids, in any order. Run LCM again with a higher minimum support: the rows are exactly those of the first run whose support reaches the new threshold.", "quantifier": "all databases, all injective renamings (also into another type and also not order-preserving), all thresholds, all max_length, all iteration orders of sets, lexicographic or not", "why_tests_cant": "Items are numbered by decreasing frequency and ties are broken by order of appearance, so names and thresholds change the numbering, the order of exploration and the pruning; a test compares a few runs.", "anchors": ["skmine/itemsets/lcm.py:LCM.fit", "skmine/itemsets/lcm.py:LCM.transform", "skmine/itemsets/lcm.py:LCM._inner", "skmine/itemsets/lcm.py:LCMMax._inner", "skmine/itemsets/lcm.py:LCMMax.transform"]}
{"id": "C120", "title": "The result of LCM gives the support of every frequent itemset", "statement": "A non-empty set of items is frequent if and only if it is included in an itemset returned by LCM. Its transactions are then those of one returned itemset that includes it, and its support is the largest support among the returned itemsets that include it. The result of LCMMax also determines which sets are frequent, and the support it lists for an itemset bounds from below the supports of its subsets.", "quantifier": "all databases, all thresholds, all sets of items, all iteration orders of sets, with max_length = -1", "why_tests_cant": "The claim is about sets that are not in the output, for every database; a test recounts the supports of a few sets.", "anchors": ["skmine/itemsets/lcm.py:LCM.fit", "skmine/itemsets/lcm.py:LCM.transform", "skmine/itemsets/lcm.py:LCM._inner", "skmine/itemsets/lcm.py:LCMMax.transform"]}
{"id": "C121", "title": "SLIMVectorizer fills cells with probabilities of the patterns in the training data", "statement": "With the default strategy, transform returns the columns and rows of the one-hot strategy; a cell that the one-hot strategy leaves at 0 is 0, and the others hold the probability of the column's itemset in the training data, that is its usage divided by the usages of all the itemsets of the code table. Hence the cells of a transaction do not depend on the other transactions, are numbers between 0 and 1, and add up to at most 1.", "quantifier": "for every fitted vectorizer, every new database, every k and every stop list", "why_tests_cant": "Tests transform the training data, where the announced value is right; the value changes when an item of the training data is absent from the new data.", "anchors": ["skmine/feature_extraction/slim_vectorizer.py:SLIMVectorizer.transform", "skmine/itemsets/slim.py:SLIM.transform", "skmine/itemsets/slim.py:cover"]}
{"id": "C122", "title": "A graph read from a file is the graph of the file", "statement": "get_graph_from_file, on a file made of three header lines followed by vertex lines (v, number, unused field, label) and edge lines (e, source, target, label), returns the directed graph whose vertices are the vertex lines, numbered from 1 instead of 0, and whose edges are the edge lines, all with the labels of the file.", "quantifier": "for every header, every sequence of vertex and edge lines in any order, all numbers and labels", "why_tests_cant": "Tests read one file; the content of the graph depends on repeated lines, on their order, on the ends of edges that are not declared and on the characters of the labels.", "anchors": ["skmine/graph/graphmdl/utils.py:get_graph_from_file"]}
{"id": "C123", "title": "SLIM gives the same result in every Python process", "statement": "The same sequence of prefit, fit, update and get_support calls with the same data gives the same code table (itemsets, order, usages) and size, whatever the order in which Python lists a set of items in the running process (the hash seed for strings).", "quantifier": "for all data, all sequences of calls, all orders in which two processes may list sets, with and without pruning", "why_tests_cant": "A test runs in one process with one hash seed, and the listing order decides only between itemsets of equal length and support.", "anchors": ["skmine/itemsets/slim.py:SLIM._standard_cover_order", "skmine/itemsets/slim.py:SLIM._prune", "skmine/itemsets/slim.py:SLIM.get_support", "skmine/itemsets/slim.py:SLIM.fit"]}
{"id": "C124", "title": "With automatic time scale, neither the origin nor the unit of times matters", "statement": "With auto_time_scale=True, fitting PeriodicPatternMiner on the same series with all times moved by a constant, or expressed in a unit ten times smaller, gives the same patterns, and reconstruct gives the same rows with the times moved or multiplied.", "quantifier": "for all series, all displacements, all powers of ten, all costs that do not depend on the origin", "why_tests_cant": "A test compares one series with one displaced copy; the scale is chosen from the trailing zeros of all the times, so that only some displacements change it.", "anchors": ["skmine/periodic/cycles.py:PeriodicPatternMiner.fit", "skmine/periodic/cycles.py:autoscale_time_unit", "skmine/periodic/cycles.py:PeriodicPatternMiner.reconstruct"]}
{"id": "C125", "title": "The names of the events do not matter to simple cycles", "statement": "Fitting PeriodicPatternMiner with complex=False on the same series with other names for the events (different events keep different names) finds the same patterns with the new names: for each event the same periods, first times, repetitions and corrections, in the same order. Only the order in which the patterns of different events are listed may change.", "quantifier": "for all series in time order, with or without auto_time_scale, all injective renamings, all ways to compute costs that go with the events", "why_tests_cant": "A test renames one series in one way. Numbers of events come from the alphabetical order of names, candidates of all events are sorted and selected together, so that ties between events are broken by names; that this never changes the selection needs a proof for every renaming.", "anchors": ["skmine/periodic/cycles.py:PeriodicPatternMiner.fit", "skmine/periodic/data_sequence.py:DataSequence", "skmine/periodic/run_mine.py:mine_seqs", "skmine/periodic/run_mine.py:filter_candidates_cover"]}
{"id": "C126", "title": "Complex patterns do not depend on the origin of times", "statement": "Fitting PeriodicPatternMiner with complex=True and auto_time_scale=False on a series in which every time is moved by the same amount finds the same patterns moved by that amount: the same trees of events, periods and distances, the same corrections and costs, first times moved. The reconstruction and the occurrences that no pattern covers are moved as well.", "quantifier": "for all series in time order, all amounts (negative ones included), all numbers of rounds of combination, all orders in which sets are listed, all ways to compute costs that do not see the origin; for nonempty series the cost formulas of the code over real numbers are one such way", "why_tests_cant": "A test moves one series by one amount. The search combines cycles in nested loops over dictionaries keyed by occurrences, sorts candidates by first time and compares costs; that none of these steps depends on the origin is a statement about all series and all amounts.", "anchors": ["skmine/periodic/cycles.py:PeriodicPatternMiner.fit", "skmine/periodic/run_mine.py:mine_seqs", "skmine/periodic/run_mine.py:run_combine_vertical", "skmine/periodic/run_mine.py:run_combine_horizontally", "skmine/periodic/candidate_pool.py:CandidatePool", "skmine/periodic/candidate.py:Candidate.computeCost"]}
{"id": "C127", "title": "LCM on more transactions and on repeated transactions", "statement": "With the same absolute min_supp, adding transactions never removes an itemset from the result of LCM: its support does not decrease, its transaction ids among the old transactions stay the same, and an itemset that is new in the result is contained in an added transaction; every itemset of LCMMax stays included in one of the new result. If every transaction is repeated k times, in any order, and the threshold is multiplied by k, LCM and LCMMax return the same itemsets with supports multiplied by k.", "quantifier": "for all lists of transactions, all added transactions, all positive thresholds, all k at least 1, all options (the same max_length)", "why_tests_cant": "A test adds some transactions to one database. Adding transactions changes the order of the items by frequency, hence the whole search tree; that no itemset is lost is a statement about all pairs of databases.", "anchors": ["skmine/itemsets/lcm.py:LCM.fit", "skmine/itemsets/lcm.py:LCM.transform", "skmine/itemsets/lcm.py:LCMMax.transform"]}
{"id": "C128", "title": "A relative minimum support keeps the itemsets that have exactly this frequency", "statement": "LCM(min_supp=s/n) on n transactions, with the quotient computed by Python, returns the same itemsets as LCM(min_supp=s): an itemset that occurs in exactly s of the n transactions is returned. Itemsets that occur in more than s transactions are returned, those that occur in fewer are not.", "quantifier": "for all s and n (s below 2^51), all databases of n transactions", "why_tests_cant": "Tests use thresholds such as 0.2 or 0.5 for which the product is exact. Which quotients are affected depends on the rounding of two operations; that the error never reaches an itemset of another support is a statement about all quotients.", "anchors": ["skmine/itemsets/lcm.py:LCM.fit", "skmine/utils.py:_check_min_supp"]}
{"id": "C129", "title": "Durations and starts are shown to the microsecond in spite of floating point", "statement": "For date indices, the periods and distances printed in the table of patterns and drawn by draw_pattern, and the starting date drawn by draw_pattern, are the times of the pattern rounded to the microsecond, although the code divides nanoseconds in floating point.", "quantifier": "for all durations and all starts since 1970, in nanoseconds", "why_tests_cant": "A test prints a few dates. Whether a quotient rounded to 53 bits, then a fraction multiplied and rounded again, gives the right microsecond depends on every bit of the time; the limit at which it stops being right is a statement about all times.", "anchors": ["skmine/periodic/pattern.py:Pattern.__str__", "skmine/periodic/cycles.py:PeriodicPatternMiner.draw_pattern"]}
{"id": "C130", "title": "Complex patterns do not depend on the names of events", "statement": "Renaming the events of a series, one new name for each old name, renames the events in the patterns found by PeriodicPatternMiner with complex=True and changes nothing else: the same number of patterns, with the same occurrences under the new names.", "quantifier": "for all series, all injective renamings, with and without automatic time scale, all costs, iteration orders and numbers of rounds", "why_tests_cant": "A test compares a few names. Names are sorted and replaced by numbers, which are compared as numbers and as texts in many places of the search; that no choice depends on them is a statement about all series and all renamings.", "anchors": ["skmine/periodic/cycles.py:PeriodicPatternMiner.fit", "skmine/periodic/data_sequence.py:DataSequence", "skmine/periodic/run_mine.py:mine_seqs", "skmine/periodic/run_mine.py:run_combine_horizontal", "skmine/periodic/run_mine.py:makeCandOnOrder"]}
{"id": "C131", "title": "Rounded cut points still separate the samples", "statement": "When MDLPDiscretizer.fit cuts a column between two consecutive samples of different values, transform gives all values up to the smaller one a smaller code than all values from the larger one on, although the midpoint is computed in floating point.", "quantifier": "for all columns of float64 values or of integers, all labels, all outcomes of the entropy comparisons", "why_tests_cant": "Tests use a few decimals. Whether a rounded midpoint can reach one of its two neighbours depends on every bit of both values.", "anchors": ["skmine/preprocessing/mdlp_discretizer.py:MDLPVectDiscretizer.fit", "skmine/preprocessing/mdlp_discretizer.py:MDLPDiscretizer.transform"]}
{"id": "C132", "title": "Emerging patterns at rounded thresholds", "statement": "With a relative min_supp p/q and an integer growth rate g, the borders of MBDLLBorder.fit hold exactly the itemsets that occur in at least the fraction g*p/q of the second collection and in less than the fraction p/q of the first one, although both thresholds are products computed in floating point.", "quantifier": "for all fractions p/q, all integer growth rates, all pairs of collections of less than 2^49 transactions on which fit succeeds, all itemsets", "why_tests_cant": "Tests use one growth rate on a few transactions. A rounded threshold is wrong by less than one unit and only matters for itemsets whose frequency equals the bound.", "anchors": ["skmine/emerging/mbdldorber.py:MBDLLBorder.fit", "skmine/itemsets/lcm.py:LCM.fit"]}
{"id": "C133", "title": "SLIM does not depend on the names of the items", "statement": "Renaming the items one to one renames the result of SLIM and changes nothing else: fit, update and get_support on renamed data give the renamed code table with the same transactions, in the same order, the same sizes, the same cells of cover and the same code lengths on renamed data, and reconstruct gives the renamed transactions.", "quantifier": "for all one-to-one renamings, all data, all sequences of calls, all iteration orders of sets that correspond under the renaming", "why_tests_cant": "Tests run one data set with one set of names. Names enter through sorting of tuples and of sets in every turn of the search.", "anchors": ["skmine/itemsets/slim.py:SLIM.fit", "skmine/itemsets/slim.py:SLIM._standard_cover_order", "skmine/itemsets/slim.py:SLIM.cover", "skmine/itemsets/slim.py:SLIM.reconstruct"]}
{"id": "C134", "title": "GraphMDL.fit succeeds on labelled directed graphs", "statement": "On a directed graph all of whose edges are labelled, GraphMDL.fit without a timeout returns the fitted object and does not raise.", "quantifier": "for all labelled directed graphs, all orders of embeddings and of sets", "why_tests_cant": "Whether a candidate comes back after it was tested, and which labels a merged pattern has, depends on the whole run of the search. The test graphs are a few.", "anchors": ["skmine/graph/graphmdl/graph_mdl.py:GraphMDL.fit", "skmine/graph/graphmdl/graph_mdl.py:GraphMDL._anytime_graph_mdl_with_timeout", "skmine/graph/graphmdl/utils.py:generate_candidates", "skmine/graph/graphmdl/code_table.py:CodeTable.compute_total_description_length"]}
{"id": "C135", "title": "Fitting a graph leaves no trace in graphs made from it", "statement": "Putting two graphs without common vertex together (nx.union or nx.compose) and calling GraphMDL.fit on the result gives the same covers, and so the same description and the same candidates, whether or not GraphMDL was fitted on the two graphs before.", "quantifier": "for all pairs of graphs, all histories of earlier covers of each and all tables", "why_tests_cant": "fit writes counters into the attributes of the caller's graph, its vertices and its edges. They collide only for particular numbers of earlier covers, which depend on the runs of the two searches.", "anchors": ["skmine/graph/graphmdl/graph_mdl.py:GraphMDL.fit", "skmine/graph/graphmdl/code_table.py:CodeTable.cover", "skmine/graph/graphmdl/code_table.py:CodeTable.mark_edge", "skmine/graph/graphmdl/code_table.py:CodeTable.mark_node", "skmine/graph/graphmdl/code_table.py:CodeTable.singleton_cover"]}
{"id": "C136", "title": "The numbers of the vertices do not matter to GraphMDL", "statement": "Giving other names to the vertices of the data graph, without changing edges, labels and their order, changes nothing in the result of GraphMDL.fit: the code table, its patterns, their usages and the description length are the same.", "quantifier": "for all data graphs and all one-to-one renamings of vertices", "why_tests_cant": "names of vertices enter the search through the names of ports and through the order of embeddings; a test compares a few renamings of a few graphs.", "anchors": ["skmine/graph/graphmdl/graph_mdl.py:GraphMDL.fit", "skmine/graph/graphmdl/code_table.py:CodeTable.cover", "skmine/graph/graphmdl/code_table.py:CodeTable.create_rewrite_edge", "skmine/graph/graphmdl/utils.py:generate_candidates", "skmine/graph/graphmdl/utils.py:get_embeddings"]}
{"id": "C137", "title": "What GraphMDL reports after a fit belongs to its final table, and the timeout is obeyed", "statement": "When GraphMDL.fit returns, for its timeout or otherwise, the description length it reports is that of the code table it reports after a cover of the data, and the usages of the patterns are those of this cover. With a timeout, no candidate is tested after a reading of the clock at or past the timeout.", "quantifier": "for all data graphs, all readings of the clock, all timeouts, and all earlier fits of the object", "why_tests_cant": "the moment at which the timeout falls decides in which of several places the search stops; a test meets one of them, and usages left by a rejected candidate look like usages.", "anchors": ["skmine/graph/graphmdl/graph_mdl.py:GraphMDL.fit", "skmine/graph/graphmdl/graph_mdl.py:GraphMDL._anytime_graph_mdl_with_timeout", "skmine/graph/graphmdl/graph_mdl.py:GraphMDL._stop_by_time", "skmine/graph/graphmdl/graph_mdl.py:GraphMDL._graph_mdl_end", "skmine/graph/graphmdl/graph_mdl.py:GraphMDL._pruning"]}
{"id": "C138", "title": "The segmentation into cycles is optimal in spite of floating point", "statement": "The segmentation of a list of occurrences into cycles and residuals returned by the dynamic program, which adds up costs in double precision, costs at most as much as every other segmentation.", "quantifier": "for all lists of at most 200 occurrences (longer ones are cut into blocks) and all costs of cycles and residuals that are not negative", "why_tests_cant": "errors of rounding pile up along the recursion and decide between segmentations of nearly equal costs; a test cannot try all costs.", "anchors": ["skmine/periodic/extract_cycles.py:compute_table_dyn", "skmine/periodic/extract_cycles.py:recover_splits_rec", "skmine/periodic/extract_cycles.py:compute_cycles_dyn"]}
{"id": "C139", "title": "Emerging patterns do not depend on the names of items and classes", "statement": "Fit MBDLLBorder on labelled transactions, then fit it again after giving the items other names, different items different names, and the two classes other names in the same order. Both fits raise the same exception or give the same borders up to the names of the items, and for every min_size discover raises the same exception or returns the same patterns up to the names, each listed as often. Only the order of the results can differ, however the new names are ordered.", "quantifier": "all labelled data sets, all one-to-one renamings of the items, all renamings of the classes that keep their order, all iteration orders of sets in each of the two runs, all thresholds and growth rates, all min_size", "why_tests_cant": "The search for maximal itemsets walks the items in the order of their names and prunes with it, so every renaming takes another path; a test tries a few.", "anchors": ["skmine/emerging/mbdldorber.py:MBDLLBorder.fit", "skmine/emerging/mbdldorber.py:MBDLLBorder.discover", "skmine/emerging/mbdldorber.py:mbdllborder", "skmine/itemsets/lcm.py:LCMMax"]}
{"id": "C140", "title": "SlimClassifier follows the names of classes and items", "statement": "Give the classes other names in the same order, and the items other names in the same order: fitted on the renamed samples, SlimClassifier predicts the renamed class for every renamed transaction. With new names of the classes in any order, it still predicts the renamed class for every transaction for which one class scores strictly better than all others.", "quantifier": "all training sets and transactions to classify, all renamings of items and classes that keep the order (for classes with untied scores: all one-to-one renamings), all lists of further items", "why_tests_cant": "Names decide between equal scores and enter the search of every model through the cover order; tests try a few names.", "anchors": ["skmine/itemsets/slim_classifier.py:SlimClassifier.fit", "skmine/itemsets/slim_classifier.py:SlimClassifier.predict", "skmine/itemsets/slim.py:SLIM.decision_function"]}
{"id": "C141", "title": "The selection of periodic patterns is cost-efficient in spite of floating point", "statement": "Every periodic pattern selected from the candidates costs less than the occurrences it newly covers would cost on their own, and every candidate left out would add too few occurrences or cost at least as much as they do at the price of the cheapest event, although the quotients, sums and means are computed in double precision.", "quantifier": "all collections of candidates with at most 2^20 occurrences each, all costs that are not negative, all orders and groupings in which the costs are added", "why_tests_cant": "Rounding decides when the cost of a pattern is nearly the cost of its occurrences, and sums depend on the iteration order of sets; tests meet few such cases.", "anchors": ["skmine/periodic/run_mine.py:filter_candidates_cover", "skmine/periodic/candidate.py:Candidate.isEfficient", "skmine/periodic/candidate.py:Candidate.getCostUncoveredRatio"]}
{"id": "C142", "title": "The period of a cycle is the best one in spite of floating point", "statement": "The period computed for a list of occurrences minimises, among all integers, the sum of the absolute corrections of the cycle, although the median of the gaps is computed in double precision.", "quantifier": "all lists of at least two integer timestamps", "why_tests_cant": "The two middle gaps are converted to doubles, added and halved with rounding; whether the result can leave the interval of optimal periods has to be settled for all pairs of integers.", "anchors": ["skmine/periodic/class_patterns.py:computePeriodDiffs", "skmine/periodic/class_patterns.py:computePeriod", "skmine/periodic/class_patterns.py:computeE"]}
{"id": "C143", "title": "Joining periodic patterns side by side saves bits", "statement": "Every candidate that the periodic miner makes by joining candidates side by side consists of occurrences of at least two candidates without common occurrences, and its code length together with that of the occurrences it leaves out, sent one by one, is smaller than the sum of the code lengths of the candidates it is made of.", "quantifier": "all series, all rounds of the search, all code lengths that are not negative, all iteration orders of sets", "why_tests_cant": "Candidates are joined in pairs and in cliques of any size found during the search; tests see a few joins and do not compare their costs.", "anchors": ["skmine/periodic/run_mine.py:run_combine_horizontal", "skmine/periodic/run_mine.py:makeCandOnOrder", "skmine/periodic/run_mine.py:substitute_factorized"]}
{"id": "C144", "title": "The order of rows does not matter to the periodic miner", "statement": "Two series with the same set of rows (time and event) give the same fitted PeriodicPatternMiner: neither the order of the rows nor the repetition of a row changes the patterns.", "quantifier": "all pairs of series with the same rows, with and without automatic time scale, simple and complex mining", "why_tests_cant": "Tests fit one order of the rows of a few series; the claim is about all permutations and repetitions.", "anchors": ["skmine/periodic/cycles.py:PeriodicPatternMiner.fit", "skmine/periodic/data_sequence.py:DataSequence"]}
{"id": "C145", "title": "Numpy integers never make the export of patterns fail", "statement": "Whatever mixture of Python and numpy integers a mined pattern holds, what export_patterns gives to json.dumps for it contains no numpy integer (json.dumps would raise TypeError), and its numbers are those of the pattern.", "quantifier": "all patterns (any depth and width) and all choices of the type of each of their integers", "why_tests_cant": "Which integers are numpy integers depends on the path by which a pattern was built (extraction, joining, nesting, factorising); tests export the patterns of a few series.", "anchors": ["skmine/periodic/pattern_collection.py:_change_int64_toint", "skmine/periodic/pattern_collection.py:PatternCollection.output_pattern_list_and_cost", "skmine/periodic/cycles.py:PeriodicPatternMiner.export_patterns"]}
{"id": "C146", "title": "The patterns found compress the series", "statement": "After fit(complex=False), the code length of the patterns found together with the occurrences they leave over is at most the code length of the series without patterns (the total compression ratio of the log is at most 100), and below it if a pattern was found.", "quantifier": "all event series in the order of time, with or without automatic time scale, all maximal periods; costs in exact real numbers", "why_tests_cant": "The cost by which a candidate is selected is computed elsewhere, and with another period, than the code length of the pattern made from it; whether the difference can exceed what is saved is a question about all series.", "anchors": ["skmine/periodic/pattern_collection.py:PatternCollection.codeLength", "skmine/periodic/data_sequence.py:DataSequence.codeLengthResiduals", "skmine/periodic/class_patterns.py:cost_triple", "skmine/periodic/class_patterns.py:computeLengthCycle", "skmine/periodic/run_mine.py:filter_candidates_cover", "skmine/periodic/run_mine.py:mine_cycles_alpha"]}
{"id": "C147", "title": "Looking at the patterns does not change them", "statement": "Calling transform() or export_patterns() any number of times outputs the same patterns each time, and the patterns kept by the miner stay the same: reconstruct(), get_residuals() and later exports see the same trees, first times and corrections; the file of the last export is imported as the same patterns.", "quantifier": "all collections of patterns, with any mixture of Python and numpy integers, all numbers of calls", "why_tests_cant": "The output is made by writing into the dictionaries of the patterns themselves; that the entries added and the conversion do no harm for any tree and any number of calls is not seen from one call.", "anchors": ["skmine/periodic/pattern_collection.py:PatternCollection.output_pattern_list_and_cost", "skmine/periodic/pattern_collection.py:_change_int64_toint", "skmine/periodic/cycles.py:PeriodicPatternMiner.transform", "skmine/periodic/cycles.py:PeriodicPatternMiner.export_patterns"]}
{"id": "C148", "title": "The patterns of the complex miner compress the data", "statement": "With fit(D, complex=True), the cost of the patterns returned, together with the occurrences they leave over (what get_residuals reports and the summary adds up), is never larger than the cost of the data without patterns, and smaller if at least one pattern is returned.", "quantifier": "all series, all orders in which the combinations are tried, all ways of listing the residuals", "why_tests_cant": "The costs used for selecting candidates are kept from the moment they were made, by different code for cycles and for combinations, and the selection is greedy on estimates; whether the sum ever exceeds the cost of the data is a statement about all series and all orders of work.", "anchors": ["skmine/periodic/run_mine.py:mine_seqs", "skmine/periodic/run_mine.py:run_combine_horizontal", "skmine/periodic/run_mine.py:run_combine_vertical", "skmine/periodic/run_mine.py:filter_candidates_cover", "skmine/periodic/pattern_collection.py:PatternCollection.codeLength", "skmine/periodic/candidate.py:Candidate.getCostNoE"]}
{"id": "C149", "title": "The names of labels do not matter to GraphMDL", "statement": "Giving other names to the labels of a data graph (different names for different labels) changes nothing in the result of GraphMDL but the names: fit finds the same patterns with the new names, the same usages and the same description length.", "quantifier": "all data graphs, all changes of names, all executions (orders of sets, readings of the clock)", "why_tests_cant": "The code mixes the names of labels with names it makes itself, orders labels alphabetically and parses names; that no step of cover, description, generation, merging, sorting and pruning depends on the names in another way is a statement about all graphs and all names.", "anchors": ["skmine/graph/graphmdl/graph_mdl.py:GraphMDL.fit", "skmine/graph/graphmdl/code_table.py:CodeTable.cover", "skmine/graph/graphmdl/utils.py:generate_candidates", "skmine/graph/graphmdl/candidate.py:Candidate.merge_candidate"]}
{"id": "C150", "title": "Singleton patterns are recognised", "statement": "is_vertex_singleton answers True exactly for the patterns made of one vertex with one label and nothing else; is_edge_singleton answers True exactly for the patterns made of two vertices without label and one edge with one label between them.", "quantifier": "all patterns (numbers of vertices, labels as strings or tuples, any edges)", "why_tests_cant": "The tests of the two functions take four small graphs each; the functions decide by counts of labels and by the vertex numbers 1 and 2, and whether this is right depends on all other graphs.", "anchors": ["skmine/graph/graphmdl/utils.py:is_vertex_singleton", "skmine/graph/graphmdl/utils.py:is_edge_singleton", "skmine/graph/graphmdl/utils.py:get_total_label"]}
{"id": "C151", "title": "The summary of a rewritten graph lists the patterns with their ports", "statement": "After a cover, get_pattern_node_infos of the rewritten graph has as keys the patterns used, each with the ports of each of its embeddings (and the word singleton for singletons); count_port_node is the number of data vertices that are ports, and get_port_node gives the ports of an embedding.", "quantifier": "all lists of pieces a cover can produce, all names", "why_tests_cant": "The only test prints the result. The order and number of entries depend on how nodes and edges of the rewritten graph are created and shared, for all covers.", "anchors": ["skmine/graph/graphmdl/utils.py:get_pattern_node_infos", "skmine/graph/graphmdl/utils.py:count_port_node", "skmine/graph/graphmdl/utils.py:get_port_node", "skmine/graph/graphmdl/code_table.py:CodeTable.create_rewrite_edge"]}
{"id": "C152", "title": "Vertices without label and edges do not matter to GraphMDL", "statement": "Adding to a data graph vertices that have neither a label nor an edge changes nothing in what GraphMDL does: the code lengths of labels, the embeddings of patterns, the covers, the candidates tested, the description lengths and the patterns found are the same.", "quantifier": "all data graphs, all sets of such vertices at any place in the list of vertices, all tables, all executions", "why_tests_cant": "It compares two runs on all graphs; the cover, the ports, the counts of labels and the matching all read the vertices of the data graph.", "anchors": ["skmine/graph/graphmdl/graph_mdl.py:GraphMDL.fit", "skmine/graph/graphmdl/code_table.py:CodeTable.cover", "skmine/graph/graphmdl/code_table.py:CodeTable.singleton_cover", "skmine/graph/graphmdl/label_codes.py:LabelCodes", "skmine/graph/graphmdl/utils.py:get_embeddings"]}
{"id": "C153", "title": "The outline of a pattern says what the pattern is", "statement": "The text given by getTreeStr has one line for every node and every distance of the pattern, indented by depth, from which the whole pattern can be read back: two patterns with the same text are the same. With a dictionary of names, the names of the events are shown.", "quantifier": "all patterns with any nesting and any numbering of nodes, all levels of indentation, all names of events", "why_tests_cant": "Injectivity of a printer relates all pairs of trees of any depth; tests compare a few texts with fixed strings.", "anchors": ["skmine/periodic/pattern.py:Pattern.getTreeStr"]}
{"id": "C154", "title": "The name of a block tells its position", "statement": "key_to_br gives every position in a pattern its own name: the children and the repetitions on the way to the block, counted from one.", "quantifier": "all positions of any depth, and all texts given as keys", "why_tests_cant": "Injectivity over positions of any depth; the empty result for unreadable keys shows only on texts that tests do not try.", "anchors": ["skmine/periodic/class_patterns.py:key_to_br", "skmine/periodic/class_patterns.py:l_to_br"]}
{"id": "C155", "title": "Every feature is discretised on its own", "statement": "MDLPDiscretizer treats each column alone: fitting on some of the columns, in any order, gives them the cut points of the fit on all columns, and fit_transform of a data frame gives every column the codes of a fit on that column alone, under its name.", "quantifier": "all tables of numbers with labels, all selections of columns, all column names, all random permutations", "why_tests_cant": "It compares fits on all selections of columns of all tables; frames with repeated column names are not among the tests.", "anchors": ["skmine/preprocessing/mdlp_discretizer.py:MDLPDiscretizer.fit", "skmine/preprocessing/mdlp_discretizer.py:MDLPDiscretizer.transform"]}
{"id": "C156", "title": "A binary table and its transactions mean the same to SLIM", "statement": "SLIM.fit on a binary table (DataFrame or array) gives the same code table, size, known items and supports as SLIM.fit on the transactions of its rows with the column names given as items; the fitted objects then answer alike. SLIM.cover and get_code_length on a new table mark, row by row, the same itemsets and give the same code lengths as on the transactions of its rows.", "quantifier": "all binary tables, with columns of zeros and repeated column names; all settings; all environments that do not look at transaction numbers; all new tables", "why_tests_cant": "It equates two input formats for all tables; the tests compare a few small ones and none with columns of zeros or repeated names.", "anchors": ["skmine/itemsets/slim.py:SLIM.fit", "skmine/itemsets/slim.py:SLIM.prefit", "skmine/itemsets/slim.py:SLIM.cover", "skmine/itemsets/slim.py:SLIM.get_code_length"]}
{"id": "C157", "title": "Labels given to SLIM.fit are ignored", "statement": "SLIM.fit documents its argument y as ignored: fitting with labels gives the result of fitting without labels.", "quantifier": "all data, all labels", "why_tests_cant": "It compares fits with all label vectors; the effect shows only for tables with a zero label.", "anchors": ["skmine/itemsets/slim.py:SLIM.fit", "skmine/itemsets/slim.py:SLIM.prefit", "skmine/utils.py:supervised_to_unsupervised"]}
{"id": "C158", "title": "Checks of tables are independent and leave pandas alone", "statement": "A table given to SLIM.fit or SLIM.cover is accepted if and only if it has a column, no column of objects and no missing or infinite value; it raises TypeError for a column of objects and ValueError otherwise, whatever was done before. The check leaves the global options of pandas as they were.", "quantifier": "all tables, all sequences of checks and of changes of the option by the program", "why_tests_cant": "It is about all histories of a process; the effect of a rejected table shows only in unrelated code that looks at infinite values later.", "anchors": ["skmine/utils.py:_check_D_sklearn", "skmine/utils.py:_check_D"]}
{"id": "C159", "title": "A copy of a SLIM object fits like the object", "statement": "copy.copy(slim) has the arguments of slim: fitting a copy gives the code table that fitting the object would give. More time never makes the result of fit larger.", "quantifier": "all constructor arguments, all data, all environments, all clocks", "why_tests_cant": "It depends on the clock: the difference shows only when the time limit strikes.", "anchors": ["skmine/itemsets/slim.py:SLIM.__copy__", "skmine/itemsets/slim.py:SLIM.__init__", "skmine/itemsets/slim.py:SLIM.fit"]}
{"id": "C160", "title": "SlimClassifier reads the samples to classify like the training samples", "statement": "SlimClassifier.predict gives the same labels whether the samples are given as a list of transactions or as an array with the same rows, in the format that SlimClassifier.fit was given.", "quantifier": "all training arrays and labels, all samples, all items and environments", "why_tests_cant": "The tests give lists of transactions; the statement is about all arrays and all fitted models.", "anchors": ["skmine/itemsets/slim_classifier.py:SlimClassifier.fit", "skmine/itemsets/slim_classifier.py:SlimClassifier.predict", "skmine/itemsets/slim.py:SLIM.cover", "skmine/utils.py:_check_D"]}
{"id": "C161", "title": "The statistics of a collection of patterns", "statement": "The statistics reported for a collection are those of the collection: the number of patterns, in all and of each kind; the code lengths of the patterns and of the occurrences left over, which add up to the code length of the collection; the number of occurrences left over; and, if the data cost anything on their own, the whole code length, its percentage of the cost of the data without patterns, and that cost. output_detailed and strDetailed report the same figures.", "quantifier": "all data sequences, all lists of patterns of the data; costs in exact real numbers", "why_tests_cant": "The figures are summed in three separate loops; a test compares them for a few collections, and no test calls strDetailed.", "anchors": ["skmine/periodic/pattern_collection.py:PatternCollection.output_detailed", "skmine/periodic/pattern_collection.py:PatternCollection.strDetailed", "skmine/periodic/pattern_collection.py:PatternCollection.codeLength", "skmine/periodic/pattern_collection.py:PatternCollection.nbPatternsByType"]}
{"id": "C162", "title": "SlimClassifier on a binary data frame", "statement": "SlimClassifier gives the same labels whether the samples, for training and for prediction, are given as a binary DataFrame or as the list of the sets of column names that are true in its rows.", "quantifier": "all binary data frames with string column names, all labels, all items and environments", "why_tests_cant": "The tests give lists of transactions; what fit reads from a frame depends on its names, its width and the order of the labels.", "anchors": ["skmine/itemsets/slim_classifier.py:SlimClassifier.fit", "skmine/itemsets/slim_classifier.py:SlimClassifier.predict", "skmine/itemsets/slim.py:SLIM.fit", "skmine/itemsets/slim.py:SLIM.cover"]}
{"id": "C163", "title": "Files of logs are read as they are written", "statement": "fetch_file of the periodic datasets returns every event of a file of lines time,event with its time, in the order of the file: times that are dates as dates, other integer times as these integers; for a file with one event per line, every event is indexed by the number of its line.", "quantifier": "all rows of times and events, all separators, all behaviours of the date parser", "why_tests_cant": "The tests read a few small files; names of events and blank lines are special to the parser of pandas.", "anchors": ["skmine/datasets/periodic.py:fetch_file"]}
{"id": "C164", "title": "The description of a data sequence gives its true figures", "statement": "getInfoStr of a DataSequence built from a nonempty list of (time, event) pairs prints the number of different events, the number of pairs, the first and last times and their difference, then one line per event, the rarest first and equal counts by name, with the event's name, its number, its count, its share of the pairs and the time between its first and last occurrences; for an empty list it says that the sequence is empty.", "quantifier": "all lists of pairs of integer times and comparable events", "why_tests_cant": "No test calls it; the figures come from six dictionaries that must agree for every input.", "anchors": ["skmine/periodic/data_sequence.py:DataSequence.getInfoStr"]}
{"id": "C165", "title": "One label of a vertex by its index", "statement": "get_label_index returns the first position of a label and raises ValueError when the label is missing; get_node_label returns the label of a vertex at that index, and raises ValueError for an index out of bounds or a vertex that is not in the graph.", "quantifier": "all labels, label tuples, graphs, vertices and integer indices", "why_tests_cant": "The test puts both error cases in one raises block, so that it passes when only one of them raises; the claim is about all indices.", "anchors": ["skmine/graph/graphmdl/utils.py:get_label_index", "skmine/graph/graphmdl/utils.py:get_node_label"]}
{"id": "C166", "title": "SLIMVectorizer leaves the stop items out when it learns", "statement": "SLIMVectorizer(stop_items=S).fit(D) learns from the transactions of D without the items of S: no itemset of its code table holds an item of S, and all other items of D are in it.", "quantifier": "all transactions, stop items, constructor arguments, candidate orders and clocks", "why_tests_cant": "No test fits with stop items; the claim is about all data and all runs of the search.", "anchors": ["skmine/feature_extraction/slim_vectorizer.py:SLIMVectorizer.fit", "skmine/feature_extraction/slim_vectorizer.py:_filter_stop_items"]}
{"id": "C167", "title": "A transaction is vectorised independently of the others in its batch", "statement": "SLIMVectorizer.transform gives the same columns for all data after one fit, and a transaction gets the same row whatever other transactions are transformed with it, with both strategies.", "quantifier": "all fitted code tables, numbers of columns, stop items and batches", "why_tests_cant": "The tests transform the training data only; the claim compares all pairs of batches.", "anchors": ["skmine/feature_extraction/slim_vectorizer.py:SLIMVectorizer.transform"]}
{"id": "C168", "title": "The description of transactions gives their true figures", "statement": "describe(D) returns the number of different items, the number of transactions, the average number of items of a transaction and the density, a number between 0 and 1: the share of the pairs of a transaction and an item in which the transaction has the item, which is 1 exactly when all transactions have all items.", "quantifier": "all lists of transactions", "why_tests_cant": "The test describes one small dataset.", "anchors": ["skmine/datasets/utils.py:describe"]}
{"id": "C169", "title": "The description of logs gives their true figures", "statement": "describe_logs(D) of a log with some event returns the number of different events, the average number of rows of an event and the average time between the first and the last row of an event, in any order of the rows; the average time is not negative and not longer than the log.", "quantifier": "all logs with integer times and at least one event, also with rows without event", "why_tests_cant": "The test describes one small log.", "anchors": ["skmine/datasets/utils.py:describe_logs"]}
{"id": "C170", "title": "Sliding windows show the elements of the array and nothing else", "statement": "sliding_window_view(x, window_shape, axis) returns a view whose element at a position i and a place j of the window is the element of x at i moved by j along the axes of the window, which always exists in x; along every axis there are as many positions as the window fits. It raises ValueError exactly when a size is negative or larger than what earlier windows leave of the array along its axis, when there are not as many sizes as axes, or when an axis does not exist. The rows for a list are its contiguous parts of that length, from left to right.", "quantifier": "all arrays of any number of dimensions and any strides, all windows (also with empty sizes), all axes (negative, repeated or omitted)", "why_tests_cant": "The view is made from raw strides: a wrong shape would read memory outside of the array, and tests look at a few small arrays.", "anchors": ["skmine/utils.py:sliding_window_view"]}
{"id": "C171", "title": "The best entries of an ordered list", "statement": "get_top_p(occ_ordc) returns three positions of the list: the first; then, among the second entry and the last one of the entries that follow it with its key, the one whose number is farther from that of the first entry; then the other one of the two. When no entry follows the second with its key, the third position is -1. In a list ordered by keys these are all entries after the first with that key. The positions are different and exist in the list.", "quantifier": "all lists of pairs of integers, ordered or not", "why_tests_cant": "The tests look at three lists of five entries.", "anchors": ["skmine/periodic/run_mine.py:get_top_p"]}
{"id": "C172", "title": "Printing the progress of SLIM tells what the fit does", "statement": "After mdl_prints(slim), slim.fit(D) gives the same result as without it. It prints the number of candidates at the beginning of every turn, and the sizes of every accepted table that saves more than 0.01 bits compared with the one before, in order, and no other sizes. So the printed totals decrease, are below the size before the fit and not below the size of the fitted table.", "quantifier": "all data, all orders of candidates and of pruning, all time limits, with and without pruning", "why_tests_cant": "The printing happens in a callback between the evaluation of a candidate and the update of the table; tests only check that it does not raise.", "anchors": ["skmine/callbacks.py:mdl_prints", "skmine/itemsets/slim.py:SLIM.fit"]}
{"id": "C173", "title": "A file of transactions is loaded under its name", "statement": "fetch_file(path, separator) returns the transactions of the file, as they were written one per line with that separator, in a series named after the file: its name without folders and without the part from its last dot on. A file without dot gives its whole name.", "quantifier": "all paths of Linux, all transactions without empty ones, all separators that do not occur in an item, all item formats that can be read back", "why_tests_cant": "The test loads one file.", "anchors": ["skmine/datasets/fimi.py:fetch_file", "skmine/datasets/fimi.py:_read_dat"]}
{"id": "C174", "title": "The table of patterns shown by GraphMDL", "statement": "The table that GraphMDL.discover() prints has one line for every pattern in use, in the order of the code table, with how often it is used, its code length, the number of its vertices that are ports, how often each is one, and the code lengths of these ports; patterns not in use have no line. It then has exactly one line for every label with a singleton in use, with the usage of the singleton in the column for the usage and its code length in the column for the code length.", "quantifier": "all data graphs and all code tables after any cover that makes at least one node", "why_tests_cant": "The call is commented out in the tests; the table depends on what the cover found in any graph.", "anchors": ["skmine/graph/graphmdl/code_table.py:CodeTable.display_ct", "skmine/graph/graphmdl/code_table_row.py:CodeTableRow.display_row", "skmine/graph/graphmdl/graph_mdl.py:GraphMDL.discover"]}
{"id": "C175", "title": "LCM on data over separate items, and LCMMax from LCM", "statement": "If two lists of transactions have no item in common, LCM with the same absolute threshold returns for both together what it returns for the first, and what it returns for the second with the transaction ids moved by the number of transactions of the first: nothing more, nothing less, nothing twice. LCMMax returns the rows of LCM, with their supports and transaction ids, whose itemset is not included in another itemset of the result; with max_length, those of them that are short enough. Its itemsets are what filter_maximal keeps of the itemsets of LCM.", "quantifier": "all pairs of lists of transactions without common items, all positive thresholds and options; for LCMMax all lists of transactions and all thresholds", "why_tests_cant": "The tests compare LCMMax with fixed results for fixed data and never join data.", "anchors": ["skmine/itemsets/lcm.py:LCM.fit", "skmine/itemsets/lcm.py:LCM.transform", "skmine/itemsets/lcm.py:LCMMax", "skmine/utils.py:filter_maximal"]}
{"id": "C176", "title": "Borders of collections of itemsets", "statement": "Every itemset of a collection is included in one that filter_maximal keeps and includes one that filter_minimal keeps. A collection can be filtered in pieces: filtering a part first, then the result together with the rest, gives what filtering everything gives. So filtering twice is filtering once, and the order of the collection does not matter, up to the order of itemsets in the result.", "quantifier": "all finite collections of itemsets, with or without repetitions, and all their divisions into two parts", "why_tests_cant": "The tests filter one small collection each.", "anchors": ["skmine/utils.py:filter_maximal", "skmine/utils.py:filter_minimal"]}
{"id": "C177", "title": "Every code of the discretizer is in use", "statement": "MDLPDiscretizer.fit_transform gives a column with k cut points exactly the codes 0, 1, ..., k: none of the intervals is empty on the data of the fit.", "quantifier": "all columns with at least one sample, all labels and all orders of equal values", "why_tests_cant": "The tests look at the cut points of a few columns of one dataset.", "anchors": ["skmine/preprocessing/mdlp_discretizer.py:MDLPDiscretizer.fit_transform", "skmine/preprocessing/mdlp_discretizer.py:MDLPVectDiscretizer.fit"]}
{"id": "C178", "title": "The itemsets of LCM are intersections of transactions", "statement": "LCM returns exactly the non-empty intersections of one or more transactions that reach the threshold. What two itemsets of the result have in common, if anything, is in the result too, with a support at least as large. With the threshold of one transaction, every transaction that is not empty is in the result of LCM, and LCMMax returns exactly the transactions that are not included in a larger one.", "quantifier": "all lists of transactions, all positive thresholds (at most 1 for the last two), all options without max_length", "why_tests_cant": "The tests look at fixed results for fixed data.", "anchors": ["skmine/itemsets/lcm.py:LCM.transform", "skmine/itemsets/lcm.py:LCMMax"]}
{"id": "C179", "title": "The two clique enumerations agree", "statement": "On the same undirected graph, utils.bron_kerbosch and the enumeration used to combine periodic patterns find the same cliques, up to their order. The order of the vertices in the dict and of the neighbours of each vertex changes at most the order of the cliques. Three or more vertices are together in some yielded clique exactly if they are pairwise adjacent, so nothing is yielded exactly if the graph has no triangle.", "quantifier": "for every finite undirected simple graph, every two dict orders and every iteration order of the vertex sets", "why_tests_cant": "The tests look at fixed graphs, and each enumeration has its own tests.", "anchors": ["skmine/utils.py:bron_kerbosch", "skmine/periodic/run_mine.py:bronKerbosch3Plus"]}
