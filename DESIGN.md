# Formal model of scikit-mine

Source modelled: `/repo` (scikit-mine, Python). Proof assistant: Lean 4.33.0 with Mathlib.
Build: `cd lean && lake build`.

## Layout

Each area has up to four kinds of modules under `lean/Verif/<Area>/`:

* `Model.lean`: the code, function by function. Every definition cites the file and lines it models and
  lists its simplifications.
* `Spec.lean`: a small specification written without the model's helpers (only lists, finite sets, numbers).
* `Lemmas.lean`: helper lemmas.
* `Props.lean`: the property theorems, each followed by an `example` exhibiting a concrete non-trivial case.

`MANIFEST.json` maps each property of `properties.jsonl` to its theorems.

## Trusted base

* Lean's kernel (and the Lean elaborator only for statement reading).
* Axioms: every theorem depends on a subset of `propext`, `Classical.choice`, `Quot.sound`. No axiom is added;
  there is no `sorry`, `admit`, `native_decide` or `bv_decide`.
* The transcription of Python into Lean, checked by reading only. The conventions are:
  * `set`, `frozenset` and `pyroaring.BitMap` are `Finset`; `dict` is an association list in insertion order
    (or a function when only lookups matter); `SortedDict`/`SortedList` are lists kept sorted by the same key.
  * Python exceptions are values (`Except`/`Option`), each error branch is modelled explicitly.
  * Iteration orders the language does not fix (sets, `SortedDict` under the partial order of frozensets) are
    parameters: the theorems quantify over every order.
  * Floating point numbers: code lengths, entropies, logarithms and gains are not computed. Where a decision
    depends on them the model takes an arbitrary function into a linear order (cost oracle), so the theorems
    hold whatever the rounding. Float minimum supports are rationals, and the product
    `min_supp * n_transactions` is an arbitrary rational threshold. Where rounding itself is the question (C128, C129,
    C131, C132, C138, C141, C142) numbers are rationals rounded to 53 bits as by IEEE 754 (`MinSupp.dbl`, `Float.fl`), without overflow and
    subnormal numbers. Code lengths are exact reals where their values matter (C72 to C75, C84 to C89, C98, C99).
  * Random generators, wall clock and `joblib` scheduling are parameters/oracles or not modelled
    (`joblib.Parallel` returns results in submission order, which is its documented contract).
  * pandas/numpy/sklearn plumbing (`_validate_data`, DataFrame construction) is not modelled.

## Method per property

* **C01**: LCM.fit (item index, frequency order) and the recursion `_inner` with fuel-free recursion on the limit; soundness and completeness by induction (ppc-extension argument) against a specification on raw transactions.
* **C02**: `Nodup` of the produced list, by the same induction (the generating chain of a closed set is unique).
* **C03**: The bounded run is a `List.filter` of the unbounded run; induction on the recursion.
* **C04**: LCMMax `_inner` and the filter in `transform`; exactness against maximal frequent itemsets.
* **C05**: Corollary of C01: the specification is invariant under permutation.
* **C06**: Decision logic, case analysis.
* **C07**: Fold invariant over the length-sorted list; `List.Perm` with the specification filter.
* **C08**: As C07.
* **C09**: Model of `np.intersect1d` on first columns; soundness proved, completeness refuted by a witness and proved under distinct first columns.
* **C10**: Recursion on candidate dict; invariant: maximal cliques extending the current clique inside candidates, avoiding excluded.
* **C11**: As C10 with an arbitrary order oracle at every level.
* **C12**: Code table as list of (itemset, tids); invariant over arbitrary operation sequences; pruning decisions are an oracle.
* **C13**: Fold invariant of `cover`.
* **C14**: State machine of accepted updates; strict decrease and well-foundedness on a finite set of code tables.
* **C15**: Prune loop with oracle choices; lexicographic termination measure.
* **C16**: Round trip from C12; exception: trailing empty transactions.
* **C17**: Refuted with a witness; exact characterisation with and without pruning (`Slim/OwnProps.lean`, from the invariant of C113): harmless iff the itemset is unused; otherwise all the other used itemsets keep their usages and the items of the itemset are lost.
* **C18**: Memo table as state; refuted with a two-fit witness, proved for a single fit.
* **C19**: Double loop over an arbitrary enumeration with the seen-stack; gain is an oracle.
* **C20**: Direct, from the vertical representation.
* **C21**: argmax first index, class split as filters; scores are an oracle.
* **C22**: Refuted: constructor argument not forwarded.
* **C23**: Columns as prefix of a sorted list; cover lemma of C13.
* **C24**: Induction on S with minimal transversals.
* **C25**: Composition of C04, C07 and C24.
* **C26**: Refuted with a witness; exact characterisation of what is returned.
* **C27**: Work-list loop as state machine with an oracle for the accept test; termination measure; order structure of the boundaries.
* **C28**: `searchsorted` as a count; reordered DataFrame columns refuted with a witness.
* **C29**: Method wrappers as functions with an effect log; refuted parts with witnesses.
* **C30**: Parameter dict as association; non-atomic failure refuted with a witness.
* **C31**: Random generator as an oracle constrained by numpy's contract.
* **C32**: Strings as lists of characters; split/join round trip.
* **C33**: Integers; loop invariant and divisibility.
* **C34**: Inductive tree type; structural induction on references and correction keys.
* **C35**: Structural induction.
* **C36**: Model of the fit of the data (duplicates dropped, time scale, data sequence), cover, reconstruction and residuals (`Miner`); set algebra over occurrence sets built on C34/C35.
* **C37**: JSON values with the textual conversion of keys (`Export`); round trip of node dictionaries by structural recursion; the data sequence of renamed events is the renamed data sequence when the renaming is increasing.
* **C38**: Greedy loop of `filter_candidates_cover` (`Select`) over an ordered field of costs; invariant on covered set and remaining candidates.
* **C39**: Dynamic programming table by induction on segment length against all segmentations; cost is an oracle.
* **C40**: Loop invariant: permutation and sortedness.
* **C41**: Decimal rendering and parsing; split/join.
* **C42**: Marking state machine: each edge/label claimed by exactly one used embedding or singleton.
* **C43**: Refuted with a witness; exact value proved.
* **C44**: Against `Nat.choose`, over rationals.
* **C45**: Elias-delta lengths with `Nat.log2`; finite Kraft sums by induction.
* **C46**: Search as a fold of accept/reject steps over an oracle cost; refit history refuted with a witness.
* **C61**: Bisimulation between marking states that agree on what is marked; invariant: no mark exceeds the counter.
* **C47**: Refuted parts with witnesses; symmetric part proved under no-duplicate ports.
* **C48**: Refuted when a name labels both a vertex and an edge; proved when label sets are disjoint.
* **C49**: File content as lines; equal to the concatenation of per-root results.
* **C50**: Inductive tree; sum rearrangement.
* **C51**: Sorting and ranking lemmas.
* **C52**: State machine invariant.
* **C53**: Projection of the cover to one transaction, a greedy recursion on the table.
* **C54**: From C53; the code lengths are an oracle which is zero exactly when the usage is the total usage.
* **C55**: Exact rationals; sums over association lists.
* **C56**: Invariant over histories: sorted positions are a permutation of the rows; uses C40.
* **C57**: Coarse and fine search as `findIdx?`; equality with a filter on sorted lists.
* **C59**: Key-free recursion for the corrections (from C34); induction over the parts; refuted in general with a witness.
* **C60**: `get_residuals(ids)` with the label-wise comparison of `DataFrame.isin`; refuted in general with two witnesses.
* **C62**: Keys as text read back by the code; the corrections of a nested tree by induction on the outer cycles; invariant on the groups; the largest start time decreases at every level. The cycles found among start times are an oracle under the contract `EnvOk` (`nest_describes`); the contract is then proved for the fold search of the code (`nest_describes_fold`).
* **C63**: Refuted with a witness; proved when a group is met in the order of start times.
* **C64**: Unambiguous parsing by structural induction; equal occurrences refuted with a witness.
* **C65**: `extract_cycles_fold` and its sub-function, loops with fuel; invariant on the link tables (every link is a near triple of positions); blocks of 1500 from 2000 occurrences on. Refuted for positions of chains in later blocks and for equal occurrences (the search never ends).
* **C66**: Links are deleted when followed; invariant on the remaining table.
* **C67**: `computePeriodDiffs` (floor of the median); the sum of absolute differences is minimised by any number with at least half of the gaps on each side.
* **C68**: `merge_cycle_lists` as a sort of keys and one pass; invariant of the pass.
* **C69**: `filter_candidates_topKeach` with the counts as a function; induction on the sorted candidates.
* **C70**: `extract_cycles_alpha` composed of C58, C65, C67, C68 and C69; costs and comparisons are parameters.
* **C71**: `mine_seqs(complex=False)` and `fit`: pool (C52), selection (C38), patterns of simple cycles and reconstruction (C36). Refuted for series not in the order of time.
* **C72**: `computeLengthCycle`, `cost_triple` and `Pattern.codeLength` over exact reals (`Cost/Model.lean`; the logarithm of a number that is not positive is `none`). Refuted for triples, whose exact difference is proved.
* **C73**: `Pattern.codeLength` equals the cost of a message defined apart in `Cost/Spec.lean` as a list of numbers with the number of values each may take. Induction on trees, using the accumulated corrections of C36.
* **C74**: the message with its events and corrections is a word whose symbols are coded knowing the previous ones; distinct patterns have words that first differ in the value of a symbol (`Cost/Code.lean`); Kraft's inequality by induction on the length of words (`Cost/Kraft.lean`).
* **C75**: `PatternCollection.codeLength` and `DataSequence.codeLengthResiduals` on a data sequence of C51; the iteration order of the set of uncovered occurrences is a parameter.
* **C76**: depth, width and the classification `getTypeStr` on trees; kinds specified by the shape of the tree (`IsChain`, `AllLeaves`); `getEventsMinor(rep=True)` against the denotation of C53.
* **C77**: `factorizePattern` on trees whose leaves are numbered in the order of the nodes; the permutation of the occurrences is a position search; induction on the number of inner nodes.
* **C78**: `mine_seqs(complex=True)` end to end (`Complex/Model.lean`): simple cycles (C70), pool (C52), nesting (C62), pairs and cliques (C39, C59), factorisation (C77), selection (C38). Costs, comparisons of costs and iteration orders are parameters; the search for chains and triples is that of C65. Invariant of the pool carried through additions (`Closed`, `PoolInv`). What is asked of the costs (`WorldOk`) is proved for the formulas of the code over real numbers in `Complex/ExactProps.lean` (`exact_worldOk`): a cycle of three occurrences or more costs more than one of them, because its period, its start and its corrections together take at least the bits of a time (`bits_ge`).
* **C79**: The same, with the stronger invariant that a candidate describes its occurrences; kept by the first round only, since joining needs one child in each part but the last. Refuted for two rounds by a complete run evaluated by the kernel.
* **C80**: A candidate within the data has bounded repetitions, periods, distances, leaves (at most one per occurrence of a repetition) and inner nodes (each nesting takes occurrences of the data strictly later than the start); there are finitely many such trees, keys of the pool are distinct, and every round but the last adds a candidate.
* **C81**: Exact effect of the two node loops and the edge loop on association lists; the vertices of the second pattern are renamed by an injective map. Outside the property: an edge between two ports joined in both patterns is overwritten, and a second pattern with a self-loop away from the ports raises TypeError.
* **C82**: Refuted with a witness; an exact condition on the labels at the ports is proved.
* **C83**: The rewritten graph is built from the pieces of the cover (C42); an invariant says that the port of a data vertex is the first node named after it, whatever labels the data use. Reading is specified separately (`RewriteSpec.lean`); that shared vertices are ports follows by counting edges at a vertex. Proved when rows of patterns with edges come before rows of one vertex; refuted otherwise by two graphs with the same rewritten graph.
* **C84**: Exact reals; both loops have closed forms as sums of logarithms of consecutive numbers, the adaptive code is specified separately (`PreqSpec.lean`).
* **C85**: The counts are read from the pieces of the cover (C42), the in-degrees from the rewritten graph (C83); the message is specified separately with its own alphabet (`DescSpec.lean`) and compared term by term. Proved when no row in use has two ports; the exact difference is proved in general.
* **C86**: Usages are counted in the pieces of the cover (C42); `code_lengths` compares every length with the share of the kind of node, `code_weights` gives the exact sum of the weights, `port_codes` the codes of the ports. Sum one is proved when no label is in use both as vertex and as edge singleton.
* **C87**: `patterns_exact` gives the exact list; it is the list of patterns in use when two kinds of nodes are in use and no label is in use both as vertex and as edge singleton (`patterns_partial`), with a witness for each hypothesis.
* **C88**: Exact reals and exact binomials; `description_exact` writes the message out with finite sums over labels and places. The Kraft inequality sums over all that can be written (number of vertices, ports, places of every label) and uses the Kraft inequality of the integer code (C43) and `(1 + x) ≤ exp x`.
* **C89**: The pieces of the cover (C42) tell which kinds of nodes are in use; rows and singletons are compared through the same `rowDescription`.
* **C90**: The rewritten graph of C83; the order of `list(set)` is a parameter. An invariant of the loop over pairs of nodes gives soundness, completeness and distinctness; realisations are specified separately (`GenSpec.lean`).
* **C91**: Exact rationals; the edges counted by the estimate contain one edge per port for every node of disjoint realisations.
* **C92**: The second loop alters the list while it reads it; `finish_spec` says which candidates are altered when a candidate is counted.
* **C93**: The dictionary of nodes is a list of keys and nodes in insertion order (`Nodes/BuildModel.lean`); `Describes` relates it to a tree with numbered nodes (`Nodes/Spec.lean`). Every operation keeps `PatObj.Is` (keys distinct and below the next number) and acts on the tree as specified; the events are those of `PTree.gen`. The state left by an operation that raises, and a root that is a leaf, are not modelled.
* **C94**: `concatTree` and `nestDict` are the dictionary code of the two functions (`Nodes/BuildModel.lean`); they are related to the trees of C59 and C62 by an invariant (node 0 comes first in the dictionary, numbers used are at most the offset). `mined_good` closes it under all sequences of operations.
* **C95**: `canFactorizeD` (`Nodes/FactModel.lean`) and `factorizeTree` on dictionaries against `PTree.canFactorize` and `PTree.factorizeAt` of C50.
* **C96**: Entropies over exact reals (`Mdlp/EntropyModel.lean`), 64 bit overflow of `pow(3, k0)` modelled. The criterion is stated on its own (`Mdlp/EntropySpec.lean`) with entropy as a sum over classes. With `x log x`: the entropy of both sides, as a function of a position inside a run of equal labels, is concave, so its first minimum is never strictly inside; transfers to the loop of C27 by `split_iff`.
* **C97**: `fitAll` takes the shuffle and the sorting of ties as parameters. Two sorted permutations without conflicting ties are equal lists.
* **C98**: Sizes over exact reals (`Slim/SizeModel.lean`), plugged into the model of C12 as its size function (`exactP`). The encoding is described per transaction in `Slim/SizeSpec.lean`. Double counting (uses per itemset against itemsets per transaction), then invariance under the order of the table. Optimality is Gibbs' inequality from `log x <= x - 1`. A data base without any item (0 / 0 in the code) is excluded from the claim.
* **C99**: Closed form of the size as a sum over the entries; the estimate is compared term by term with the difference of two closed forms.
* **C100**: The two comparison functions are modelled (`Graph/MatchModel.lean`), the search of networkx is taken to return all maps that pass its tests (structure `Found`). Equivalence with `Occurs`, for patterns built from singletons by merging: by induction over `Made`, a tuple or list label has two different members, which excludes the one case where the comparison is too strict. Automorphisms: the label sets grow along the map and their total size does not change.
* **C101**: The two loops and the reader are modelled (`Ubiq/Model.lean`); regular expression, date parser and pandas are not. Invariant of the loop over the lines: events and counters per user against the log, users with a bad date. Names are texts; the marks are cut off again at the last underscore.
* **C102**: The regular expression is modelled as a matcher on texts (`Hooks/CheckModel.lean`) and shown equivalent to the existence of a place with `self`, an optional attribute name, spaces and `=`. The classes `\w` and `\s` are parameters with four assumptions, met by ascii. The dict methods that are not redefined are those of `dict`.
* **C103**: The models of matching, cover, rewritten graph, generation and merging (C42, C81, C83, C90, C100) put together: `Tables` has the lists of patterns a run can have in its table; invariant by induction: every pattern is made by merging, linked and occurs. The step: two pieces share a vertex of the data exactly where the rewritten graph says so, no edge is covered twice, hence the merge of their patterns occurs where they meet. The singletons read by the generation need not be those of the same cover (after a pruning that is undone they are not). Proved for simple graphs without loops, with labels apart from each other and from the names of rows and vertices; witnesses for each of the three.
* **C104**: The printed tree as a list of characters, for integer times and for dates (`str` of a `timedelta`, microseconds rounded half to even); unambiguous parsing by structural induction. The factor taken out by the scaling is a parameter. The unit is compared with a specification that prints the scaled pattern.
* **C105**: The search of C46 with the cover, the total description length, the candidates and the merging of their own models in place of its parameters (`RealSearch`). The number of pieces of a cover is bounded by the data, only patterns that occur in the data are used, and the vertices of merged patterns have bounded numbers, so that a table has one of finitely many lengths, whatever its rows; every accepted change makes the length smaller. Tables with few rows give finitely many candidates up to `__eq__`, and tested candidates are not tested again. Lengths are reals. A cover, description or generation that raises ends `fit` in the code; the model goes on with the length 0 or without candidates and ends too.
* **C106**: the list of drawing statements (`Draw/Model.lean`), read by labels, solid edges and dotted edges of a name (`Draw/Spec.lean`). Induction on the numbered tree: statements of a subtree say nothing about other names. Reading back: induction on two trees shown by the same drawing. The printing of dates is a parameter (one-to-one, no line break); divisions by 1000 are exact instead of float.
* **C107**: the attributes of the miner as optional values and a step function for the calls (`Session/Model.lean`); what the methods compute from the attributes they read is a parameter. Queries change `cycles` only; a fit or an import makes all attributes read by the method equal to those of a new miner.
* **C108**: `display_graph` as a function to texts, with the text of a label as parameter, and `discover` as a list of printed items or an exception (`Graph/ShowModel.lean`), on top of the cover and `patterns` (C87). The text is taken apart at its dashes and line breaks; that every pattern of the table can be displayed follows from the invariant of C103 (`tables_good`).
* **C109**: a disk (folders, files) and a step function for the calls (`Fetch/Model.lean`); servers are functions given anew at each call, decoding and pandas are parameters (assumption: the table written with `to_csv` is read back). Files are never changed once written; what is in a file is what the server said to a call at that place.
* **C110**: the attributes of the object and a step function for the calls (`LCM/SessModel.lean`), around the functions of C01-C05 and the check of C06. Only `fit` changes what `transform` reads.
* **C111**: the sort key of the code table is computed through the results stored by `lru_cache` (`Slim/SessModel.lean`), and the calls are steps of an object that keeps these results from one fit to the next. The invariant says that the stored results are right and that the table is sorted by the documented order. The number of transactions containing an itemset is counted in the data.
* **C112**: the model of `fit` (C14). The last turn of the main loop evaluated every candidate of the final table and accepted none; every co-used pair gives a candidate unless an earlier pair with the same union was met.
* **C113**: the models of C12 and C111. The sort key is one-to-one because it ends with the items; the invariant says that the table is sorted and equal to the cover of the data by its own itemsets. Removing an unused itemset does not change a cover; an accepted removal installs a new cover. The greedy cover is that of C53.
* **C114**: the models of C12, C53, C98 and C111. Two runs are related by a bijection of the transaction numbers; every function of the model commutes with it. The standard code table, whose order depends on the data for equal supports, is related as a dictionary; the sort key is one-to-one, so the code tables are equal lists. The parameters left open (sizes, gains, iteration orders) are assumed to depend on the itemsets and counts only; this is proved of the exact sizes.
* **C115**: the model of C21 with the sessions of C111 for the training of each class; follows from C114 and C53.
* **C116**: `Mine.shift_equivariant` and `Mine.shift_exact` on the models of C71 and C72. Each stage (grouping, dynamic splits, triples and chains, merge, top-k, pool, greedy selection, patterns) is shown to commute with moving the times. `shift_exact` uses the costs of the code over exact reals, with the real start and end of the data; an undefined logarithm has an arbitrary fixed value. Rounding of floats is not modelled. The sort of `reconstruct` is any sort that commutes with the displacement.
* **C117**: `Mdlp.increasing_change` and `Mdlp.classes_renamed` on the models of C28, C96 and C97. Positions of cuts depend on the ordered labels only; midpoints of neighbours compare with samples as the left neighbour does, and coincide only when all four values are equal. Values are rationals and entropies exact reals: rounding of midpoints and entropies is not modelled. The shuffle permutes positions and the sort compares values only; both are hypotheses.
* **C118**: `Border.order_independent` on the models of C24 to C26. Maximal itemsets of two rearrangements are the same sets (exactness of LCMMax); the left side of a border is determined as a set by the minimal sets outside the maximal itemsets of the first class; the patterns of a border depend on the left side through its members only. `discover` can only raise one kind of exception, so the order of the borders does not decide which one is seen.
* **C119**: `LCM.lcm_renamed`, `LCM.lcmMax_renamed` and `LCM.lcm_threshold` on the models of C01 to C04. Rows are compared by their itemset as a set, their support and their transaction ids, as lists up to order.
* **C120**: `LCM.lcm_supports` and `LCM.lcmMax_frequent`: a largest superset with the same transactions is closed, and a largest frequent superset is maximal.
* **C121**: `Slim.vectCodes` on the models of C12, C13 and C23, with exact rationals; `none` is `NaN`. The specification writes values into the one-hot matrix of C23.
* **C122**: `GraphFile.readGraph` models `get_graph_from_file` on the characters of the file: universal newlines, lines, fields, `int`, and the dicts of `networkx.DiGraph` (one label per node, one edge per ordered pair). The specification writes records to text (`fileText`) and compares the graph with the records.
* **C123**: two runs of the session model (`srun`) on the same calls with two orders of listing sets (`iter`), compared on the fitted attributes. Proof: on data without ties the sort keys of two processes compare alike on all itemsets that can enter the table (`Seen`), and every function of the model depends on the keys only through these comparisons (`Agree`).
* **C124**: `fitData true` (C36), `mineSimple` (C71) and `reconstruct` (C36) on a series and its image. Proof: the scale is determined by divisibility (`HasScale`), which is kept by whole days and by powers of ten below a second; then the data are equal or moved, and simple cycles (C116) and complex patterns (C126) follow (`Complex/UnitProps.lean`).
* **C125**: `fitData` (C36), `mineSimple` (C71), `filterCover` (C70) on a series and its renamed copy. Proof: the selection of candidates is a greedy choice (`greedy`, `loop_greedy`) in which candidates that share no occurrence do not influence each other (`filterCover_part`); so the patterns of one event are those selected among its own candidates (`mineSimple_event`), which do not depend on its number.
* **C126**: `fitData` (C36), `mineComplex` (C79), `reconstruct` (C37) on a series and its moved copy. Proof: every step commutes with moving (`mvA`, `mvPool`): factorization, concatenation, nesting (`nestCmplx_mv`), the pool (`addCands_map`), the rounds (`rounds_mv`), the selection. `exactWorld`: the cost formulas over real numbers; `codeLength_move`: they do not see the origin.
* **C127**: `lcm`, `lcmMax` (C01, C04). Proof from their exact characterizations: supports add up when databases are concatenated.
* **C128**: `dbl`: rounding to 53 significant bits, ties to even, unbounded exponents; `relThreshold`: the threshold computed for `s / n` (`threshold_rel`: the one of C06). Proof: relative error `2 ^ -53` of each operation (`dbl_error`); the violation is computed exactly (`relThreshold_seven`).
* **C129**: `dbl` (C128), `floatDelta`, `floatStart`: the conversions of `timedelta` and `utcfromtimestamp` on floats. Proof: half of the spacing of doubles below a power of two (`dbl_error_lt`), exactness at halves (`dbl_half`). It also justifies the exact division of `micro` in C104 and C106.
* **C130**: the data sequence of a series with names in the same order is the same but for the names (`fitData_name`), and the search reads numbers only. For names in another order the search is run on a series with costs that do not distinguish events.
* **C131**: doubles as integers of 53 bits times powers of two, rounding to the nearest one (`Float/Model.lean`, `Float/Props.lean`: `fl_spec`, `fl_mono`), and the loop of C27 with rounded midpoints (`Mdlp/FloatModel.lean`). Proof: no double is nearer to the sum than the rounded sum, hence the midpoint is strictly between its neighbours if any double is; the positions of the cuts do not depend on the values. Not modelled: overflow of the sum, subnormal numbers, columns of `float32`.
* **C132**: `fit` of C25 with the three products rounded to doubles (`Border/FloatModel.lean`); specification with natural numbers only (`AtLeast`). Proof: the computed threshold is so near to the exact one that both compare alike with every natural number, unless the exact one is a natural number itself (`compare_near`); for the default parameters those cases are settled by the bits of 0.1.
* **C133**: the session model of C111 on items of two types, related by an order-preserving map (`Slim/NameLemmas.lean`, `Slim/NameProps.lean`). Proof: every function of the model commutes with the renaming, including the stored results of `get_support` and the lexicographic keys; the exact sizes of C98 do not look at names (`exact_names`).
* **C134**: the search of `SearchModel` with cover, lengths, candidates and merging in place (`EndModel`), and the order in which candidates are tested (`SortedGen` in `Graph/RaiseProps.lean`). The description lengths on data without vertex labels are logarithms of rationals that are computed exactly (`Graph/RatLength.lean`). Proof of the witness: for every possible order of the embeddings the covers, lengths and candidates of the two rounds are computed. Positive part (`Graph/StepProps.lean`): merged patterns that occur in data with at most one label per vertex have at most one label per vertex, hence can be described with the label codes of the data.
* **C135**: the marks of `CoverModel` on the graph `nx.union` makes of two graphs (`Graph/JoinModel.lean`; networkx itself is not part of the code: the union takes the graph attributes of the second graph over those of the first). Proof: after any history all edges and labels carry the mark of the last cover, and a cover reads only whether a mark is that of the new cover.
* **C136**: the whole search of C105 (`EndModel.lean`), with the order of rows and the usages read by the pruning tied to the table as well (`WholeSearch`, `Graph/VertexSpec.lean`). Proof: every function of the cover, of the rewritten graph, of the lengths and of the candidates commutes with the renaming (`VertexLemmas.lean`, `VertexGen.lean`); the order in which networkx lists embeddings is a parameter.
* **C137**: `Graph/ClockModel.lean`: the search of C46 with the variable `current` of the code (the last reading of the clock) at the head of the loop, where `SearchModel.lean` takes a new reading. The clock is a sequence of rationals, any sequence for the first claim, one that does not go back for the timeout and the end. Proof: every way out of the loops passes through `_graph_mdl_end`, or leaves at the head with a reading after the timeout, which only follows such an end.
* **C138**: `Cycles/RoundModel.lean`: the table of C39 with sums and products as parameters (`tableWith_exact`: exact sums give the table of C39), then with rounding to the nearest double (`tableDbl`, the `dbl` of C128, unbounded exponents). Proof: the score of a stretch of `m` occurrences is at most `(1 + u) ^ m` times every exact cost and at least `(1 - u) ^ m` times the exact cost of the segmentation read from the table.
* **C139**: models of C24 to C26 and C118. The maximal itemsets follow the names by C119 (`LCM.lcmMax_renamed`); each left side is characterised by membership (`mem_leftOf`), which commutes with a one-to-one renaming; the sorted labels commute with an increasing renaming. `class_names_matter` shows that the order of the class names has to be kept: exchanging it exchanges the two collections.
* **C140**: models of C21 and C133. The classes are sorted, so an increasing renaming leaves the list of models as it is (`class_names_follow`); for other renamings, both predictions are compared through C21 (`class_names_untied`); items through C133 (`item_names_follow`, for two ways of training that correspond under the renaming). `tied_names_matter`: with equal scores the smaller name wins, so the condition on untied scores is needed.
* **C141**: `Select/RoundModel.lean`: the loop of C38 with quotient and test as parameters (`filterWith_exact`: exact ones give the loop of C38), then in doubles (`filterDbl`, the `dbl` of C128, unbounded exponents). The sums are any rounded additions of the costs, in any order and grouping (`SumsTo`), possibly different in each test. Proof: one invariant of the loop for any test (`loopWith_spec`), then bounds on rounded sums and quotients (`sums_near`, `fl_div`).
* **C142**: `Mine/FloatModel.lean`: the median of C67 as numpy computes it (`periodFloat`: middle values rounded to doubles, sum rounded, half rounded, floor; `fl` of `Float/Model.lean`, unbounded exponents). Proof: rounding is monotone and leaves doubles unchanged, so the rounded mean of two doubles lies between them (`mid_between`), and every integer between the medians is optimal.
* **C143**: the model of C78 (`Complex/Model.lean`). `Complex/JoinProps.lean`: the tests of the code compare costs per occurrence; as the new candidate uses no occurrence more often than its parts do (`concat_subperm`), the test implies that the total is smaller (`worth_saves`). Invariants of the loops over rows, pairs and cliques; factorisation does not raise the cost (`substitute_cost`).
* **C144**: `Miner/GroupModel.lean` is `fit` up to the mining, with the dictionary of events in the order of their names, as pandas gives it (`sortedGroups`). `Mine/RowProps.lean`: the groups are the same for the same set of rows, when the rows of each event come out in the order of time; the automatic time scale depends on the set of times only. `groups_order` links the model to `fitData`, used by C36, C71 and C78: mining gives the same result on both, because it uses dictionaries only by looking up keys.
* **C145**: `Export/NumpyModel.lean`: the Python values of C37 with two types of integers, and the conversion, which looks into dictionaries, and into lists and tuples one level below. `Export/NumpySpec.lean`: `Plain` (no numpy integer at any depth) and `forget` (the value without the types). Proof: every number of a node stands at a place that is converted; the conversion changes types only.
* **C146**: models of C71, C72, C75, C116. `Mine/CompressLemmas.lean`: every cost recorded is that of the occurrences or the one of a triple, and the recorded costs selected add up to less than the occurrences they cover. `Mine/CompressProps.lean`: the code length of a pattern is its recorded cost, plus at most one bit for three occurrences whose distances differ by more than one (`compress_bits`); without such a pattern the claim holds (`compress_partial`). `compression_fails`: one event at times 0, 48 and 100 gives a pattern which costs more than no pattern at all (log2 1036800 against log2 1030301 bits).
* **C147**: `Export/RepeatModel.lean` (the pattern objects with their dictionaries, changed in place by each call; the tree which the methods see from a node of the raw dictionary). `Export/RepeatProps.lean`: writing the three keys again and converting again changes nothing (`output_repeat`); the added keys are texts and the nodes have numbers, so every tree read from a node is the same (`calls_keep`); the import of C37 applies to the last export (`calls_import`). Methods that go through all the keys (`mapEvents`, `getTranslatedNodes`) would fail on the added keys; no method of the miner calls them after the patterns are made.
* **C148**: `Complex/PriceLemmas.lean`: every candidate of the pool is a cycle with the cost of the search for cycles, or has the cost recomputed by the code (`mineComplex_rated`). `Complex/CompressProps.lean`: with the costs of the code as exact reals and at most one round of combinations, the patterns with the residuals cost at most as much as the data, up to one bit for each pattern of three occurrences at distances that differ by more than one (`complex_compress_bits`); without such patterns never more, and less if there is a pattern (`complex_compress_partial`). With them it fails, for any number of rounds (`complex_compression_fails`): the cycle 0, 48, 100 is priced with the smaller distance as period, the pattern has the mean distance (C146). Missing: more than one round, where patterns need not generate their occurrences (C79), and that the cost of each pattern is defined (it is for patterns that are proper and have their occurrences in the data, C73).
* **C149**: `Graph/RelabelSpec.lean` says what other names are; `Graph/RelabelCover.lean` (cover), `Graph/RelabelDesc.lean` (rewritten graph, lengths), `Graph/RelabelGen.lean` (candidates, merging), `Graph/RelabelSearch.lean` (search) show that every step commutes with them; `Graph/RelabelProps.lean`: every search of the data is, under the new names, a search of the data with the new names, and ends in the same state under the new names (`label_names_partial`); the code lengths of labels follow (`label_codes_relabel`), and any other names of the labels, different for different labels and none a name of a row or vertex, are of this kind (`renaming_extends`). The labels of the data must keep their alphabetical order, an empty label must stay empty, and the embeddings of a pattern are listed in the same order. When the order changes, the pattern of a candidate can have its vertices numbered otherwise (`label_order_matters`); when a label is the name of a vertex, candidates are lost (`label_named_like_vertex`).
* **C150**: `Graph/SingleModel.lean`, `Graph/SingleProps.lean`: the two answers are right on all patterns without loops whose edges have labels and, for edges, whose vertices are numbered from 1 on, which holds for patterns made by the program (`vertex_singleton_partial`, `edge_singleton_partial`). A loop is taken for a vertex singleton (`loop_is_vertex_singleton`); with other numbers of vertices the test of edges raises KeyError (`edge_singleton_raises`, `edge_singleton_raises_on`); an edge without label or a loop beside a vertex is overlooked (`two_edges_singleton`).
* **C151**: `Graph/InfoModel.lean`, `Graph/InfoLemmas.lean`, `Graph/InfoProps.lean`: by induction on the pieces of the cover, the rewritten graph has one pattern node per piece with its ports in order, and one port node per data vertex (`graphOf`); the summary then has the right list at each pattern (`pattern_infos_partial`), the number of ports is right (`count_ports`), and so are the ports of a node (`ports_of_nodes`). Ports are listed as if they were patterns, with the ports of the node made before them (`infos_list_ports`). Names of labels, rows and vertices must differ and no piece may have two ports at one vertex.
* **C152**: `Graph/BareSpec.lean`, `Graph/BareProps.lean`: the cover reads only the edges and the labels of vertices, and a vertex without label adds nothing, so covers are equal (`AddsBare.cover_eq`), hence also lengths (`bare_length`) and searches (`bare_search`); the code lengths of labels (`bare_label_codes`) and the embeddings of all patterns the search can make (`bare_embeddings`, `made_each_touched`) are the same. All together: `bare_vertices`.
* **C153**: `Outline/Model.lean` prints the dictionary of nodes; `Outline/Spec.lean` gives the lines with indentations. `outline_lines`: the text is those lines; a parsing argument on lines (a line that is not deeper ends a subtree) gives `outline_identifies_partial` and, for integer events, `outline_identifies_ints`. `names_never_shown` refutes the part on names.
* **C154**: `Outline/BrProps.lean` on the model of keys of C41: `br_of_key`, `br_injective`; unreadable keys share the name of the root (`br_broken`).
* **C155**: the models of C28 and C96 with the random permutation as a list of positions and `cut_points_` as a dictionary with insertion order (`Mdlp/FrameModel.lean`). A permutation of positions commutes with a selection of columns (`features_alone`, `frame_alone_partial`); a dictionary with a repeated key is too short (`repeated_names`).
* **C156**: `prefit`, `cover` and `get_code_length` on tables (`Slim/TableModel.lean`): columns as lists of booleans, the dictionary of supports with one entry per column name. Both formats give the same supports; the known items agree once the columns are named in `items`; the fit only looks at these (`table_as_transactions`, through the renaming lemmas of C114 with the identity). New tables: both covers mark the greedy cover of the row (`cover_table_rows`, `code_length_table_rows`).
* **C157**: `supervised_to_unsupervised` keeps the rows with a non-zero label (`labels_select_rows`), so labels are ignored only when none is zero (`nonzero_labels_ignored_partial`); counterexample `labels_not_ignored`; labels beyond the last row raise `IndexError` (`too_many_labels`).
* **C158**: `_check_D_sklearn` with `use_inf_as_na` as a global state (`Checks/Model.lean`); verdicts by cases and induction over the calls (`verdict_right`, `verdicts_alone`). The option survives only tables without holes (`option_kept_partial`); it stays set after a table with holes (`option_left_set`) and is cleared by a usable table (`option_taken_back`).
* **C159**: the constructor arguments, `__copy__` and the time test of `fit` with the clock as a parameter (`Slim/CopyModel.lean`). The limit enters the main loop only through its outcome (`copy_fits_alike_partial`); induction on the turns compares sizes (`copy_not_larger`, `more_time_not_larger`); `__copy__` leaves out `max_time` (`copy_loses_limit`).
* **C160**: `fit` runs over the rows of an array (items are its values), `predict` reaches `cover`, which takes an array for a binary table (items are its column numbers) (`Classify/ArrayModel.lean`, on top of C21 and C156). `predict` on an array is `predict` on the positions of the non-zero values (`predict_array`), equal to that on the rows when these agree (`predict_array_partial`); with items that are no column numbers every sample gets the smallest label (`predict_array_smallest`, `array_and_list_differ`).
* **C161**: the statistics of `output_detailed` and the values returned by `strDetailed`, with the loops over patterns and over uncovered events (`Report/Model.lean`, on top of C75 and C76). `figures_right` gives every figure of the report in terms of the patterns and of the set of occurrences that none of them covers; `printed_same_partial` the equality of the two reports when a pattern is simple; `printed_raises` the `KeyError` of `strDetailed` otherwise.
* **C162**: `fit` runs over the column names of a frame, each name being a transaction of letters, and pairs them with the labels by position; `predict` reaches `cover`, which reads the frame as a binary table (`Classify/FrameModel.lean`, on top of C21 and C156; names are lists of code points). The model of a label is fitted on the letters of the names of the columns at its positions (`frame_transactions`); the values of the frame are never read (`frame_values_ignored`); `fit` raises exactly when a label does not occur among the first labels, one per column (`frame_fit_raises`); with names of several letters every sample gets the smallest label (`predict_frame_smallest`, `frame_and_list_differ`). It holds with a single label (`one_label_partial`).
* **C163**: `read_csv` with the arguments of `fetch_file`, after its documentation, on texts without quotation marks, tabulators and carriage returns (blank lines, leading spaces, words for missing values, uneven lines), then the choice between dates and integers with `to_datetime` as a parameter (`Logs/Model.lean`). A time that is neither date nor integer raises (`bad_time_raises`). Rows with clean words are read back (`dates_read_partial`, `ints_read_partial`, `lines_read_partial`); an event called like a missing value is lost (`na_event_missing`), and after an empty line the index is not the number of the line (`empty_line_shifts`; in general `single_column`). Which words are missing values is stated separately (`missing_words`).
* **C164**: `getInfoStr` as the figures it prints, line by line, from the fields of the built sequence (`DataSeq/InfoModel.lean`); layout and rounding to three digits are left out. Proved from the invariant of the construction: the dictionaries of counts, shares, first and last times have the numbers of the events as keys (`line_of`), and sorting by count is stable (`keySort_lex`), so the lines are ordered by count and name (`info_right`); the empty list by evaluation (`info_empty`). Dictionaries are reduced to lists by `dict_as_list`.
* **C165**: both functions over the labelled graphs of C47 (`Graph/AtModel.lean`), with the indexing of Python (negative indices from the end). Proved for all graphs: first position (`label_index`), label in bounds (`node_label_partial`), both together (`label_index_at`). Out of bounds the claim is false: past the end the whole tuple is returned (`index_past_end`), before the start it is an IndexError (`index_before_start`), and for labels not given as tuples the index is ignored (`index_ignored`).
* **C166**: `fit` of the vectorizer passes a generator to `SLIM.fit` as soon as `stop_items` is given (`Slim/StopModel.lean`, on top of the model of `fit` of C159); scikit-learn's validation of a generator is modelled by its exception. It always raises (`stop_fit_raises`). When the items are taken out beforehand the claim holds for all runs of the search (`filtered_fit_partial`, from `fit_knows_partial`).
* **C167**: no further model; two runs of `vectTransform` and `vectCodes` (C23, C121) are compared. The columns depend on the set of items of the batch only (`columns_seen`), and a row on the greedy cover of its transaction by these columns, which determines it (`marked_inj`): for batches with the same items outside the stop items the claim holds (`batches_alike_partial`). For other batches it fails (`batch_changes_row`).
* **C168**: `describe` with exact means (`Describe/Model.lean`); not a number is `none`. Figures for all data (`describe_figures`); the density for transactions without repeated items by counting pairs (`density_partial`). With repeated items it exceeds 1 (`density_above_one`), without items it is not a number (`density_undefined`).
* **C169**: `describe_logs` with the groups of pandas as the sorted events with their times, rows without event left out (`Describe/Model.lean`). Averages are characterised by their products with the number of events (`logs_right`); the counts add up because every row with an event is in exactly one group (`sum_counts`). What pandas does without any event is not modelled.
* **C170**: `sliding_window_view` on arrays given by memory, address, shape and strides (`Window/Model.lean`). The address of an element of the view is the address of the moved index, by induction on the axes (`dot_place`), and trimming the shape keeps the moved index within the array (`trim_place`): `view_elements`. When views exist: `view_exists`, `view_given_axes` (different axes), `view_repeated_axes` (sizes that are not zero), `axis_refused`; lists: `rows_of_list`. For repeated axes with empty sizes the exact condition is not stated; `subok` and `writeable` are left out.
* **C171**: `get_top_p` with its loop as a recursion on the position (`TopP/Model.lean`). Invariant of the loop: all positions passed have the key of the start (`lastTie_spec`); `top_two`, `top_ties`, `ties_all`, `positions_exist_partial`. A list with less than two entries gets positions that it does not have (`second_missing`). Keys and numbers are integers.
* **C172**: the loops of `SLIM.fit` with the lines printed by the two functions of `mdl_prints` (`Slim/PrintModel.lean`); a line with two sizes is represented by their sum, and numbers are exact. The loops with and without lines agree (`print_same_result`); the lines are described by the states that the fit goes through (`Goes`, `print_lines`), by induction over the turns; `print_decreases` follows. The docstring promises that nothing is printed unless the miner is verbose; the code does not look at such a parameter, and SLIM has none.
* **C173**: `fetch_file` on a path and the text of the file (`Datasets/FileModel.lean`), with `basename` and `splitext` as on Linux. `file_name`, `hidden_file_name`, and with the round trip of C32 `file_roundtrip`.
* **C174**: `display_ct` and `display_row` on the usages and code lengths of C86, a line being a structure with the six columns (`Graph/FrameModel.lean`). Lines for the rows and the labels by induction over the rows and from `code_lengths` (`table_lines_partial`). The usage shown for a singleton is its code length: it is right only if the number of nodes is `usage * 2 ^ usage` (`singleton_usage_iff`), and wrong on a path (`singleton_usage_wrong`). The drawing is given by the number of the row.
* **C175**: the models of C01, C04 and C07. A frequent itemset of joined data lies in one of the parts, the other part does not change its counts (`side_of`, `same_counts`): `lcm_separate`. A frequent itemset is maximal exactly if it is closed and no closed frequent one is above it (`maximal_iff`): `lcmMax_of_lcm`, `lcmMax_filter_maximal`.
* **C176**: the models of C07 and C08. A largest itemset above a given one is kept (`maximal_above`, `minimal_above`), so that the itemsets kept decide like all of them: `maximal_pieces`, `minimal_pieces`, `filter_again`.
* **C177**: the models of C28 and C96, values being rationals. Between two cut points there is a sample, as both are midpoints of consecutive different values (`codes_any`, for any criterion); `codes_in_use_partial` when samples of equal value have equal labels. With ties a column can be cut at the repeated value, and a code is never used (`code_unused`).
* **C178**: the models of C01 and C04. A frequent itemset is closed exactly if it is what its transactions have in common: `lcm_intersections`, `lcm_common`, `lcm_transactions`; `lcmMax_transactions`.
* **C179**: the models of C10 and C11. Both results are lists without repetition with the same members; a clique is extended to a maximal one: `enumerations_agree`, `bronKerbosch_order`, `bronKerbosch_cover`.
* **C58**: Block loop with fuel; invariant: splits are ordered and disjoint.

## Disagreements between the code and the property (found while modelling)

* C06: NaN is accepted as a float minimum support.
* C09: `intersect2d` loses common rows when first columns repeat.
* C16: `reconstruct` loses trailing empty transactions, and raises when every transaction is empty.
* C17: `update(candidate)` with a candidate already in the table overwrites its cover by the empty one.
* C18: `get_support` is memoised across fits and answers for the old data.
* C22: the `pruning` parameter of `SlimClassifier` is never forwarded.
* C23: `SLIMVectorizer.transform([])` returns one row. Also `SLIMVectorizer.fit` with any `stop_items` passes a
  generator to `SLIM.fit`, which raises; see C166.
* C25: `fit` raises IndexError when the first collection has no frequent item and the second has one, and ValueError
  when the raised threshold exceeds 1.
* C34/C50: a node dictionary whose first child has a distance other than 0 is accepted, but the corrections computed from
  times then do not give the times back, and factorising loses the distance of the grandchild.
* C59: `prepare_candidate_concats` counts the distance of a part from the first child of the previous part while the tree
  semantics counts it from the last child, and indexes the distances by part instead of by child. Regenerated times are
  wrong as soon as a part other than the last has several children.
* C26: `borders_to_patterns` rejects subsets of left members instead of requiring a superset of one.
* C28: reordered DataFrame columns receive the cut points of another column.
* C29: a callback raising TypeError is called twice; attaching twice calls it twice.
* C27: fitting the discretizer on zero samples raises ZeroDivisionError instead of returning no cut point.
* C29: a callback with more than two parameters on a method returning a non-tuple raises outside the guarded call.
* C31: `make_transactions(0)` raises ValueError; `make_classification` truncates the class sizes (99 of 100 samples for three classes) and raises when a class gets no sample.
* C30: `set_params` assigns the valid names preceding an unknown one before raising.
* C36: `reconstruct` raises KeyError for an empty selection, `get_residuals` when everything is covered.
* C37: `export_patterns` raises AttributeError with `auto_time_scale=False` and when there is no pattern; integer event names
  come back as strings which sort differently, so imported patterns generate other events. `transform` adds the keys
  `next_id`, `t0`, `E` to the node dictionary of the patterns.
* C60: `get_residuals(ids)` compares rows label by label (`DataFrame.isin`), so it keeps covered rows and loses uncovered ones.
* C43: the first image of every pattern vertex is dropped, so the support is one too small unless the first image of the
  minimal vertex occurs again.
* C42: a vertex shared by two used embeddings has its label described twice (only edges are checked before an embedding is
  used); parallel edges of a multigraph with equal labels share one mark; the used embeddings of a row are never emptied.
* C46: `_pruning_rows` and the timeout survive from one fit to the next, so a refit can raise ValueError; a candidate generated
  again raises TypeError (`MyLogger()` is called); a row listed twice for pruning raises ValueError; arrival numbers repeat
  after a pruning, and a rejected pruning can reorder rows that compare as equal, so that the final length can exceed the initial one.
* C47: equality of candidates is one-directional; `inverse` mutates its receiver, so `candidate == candidate.inverse()` is always true.
* C48: a label shared by vertices and edges is counted once only; labels stored as lists (made by merging) raise TypeError.
* C54: the code length of a transaction covered by the only itemset of a model is 0, replaced by infinity.
* C52: `addCand` with its default `with_props=True` stores a `range`; the second call raises AttributeError before incrementing the id, so that the third call overwrites the candidate. `addCands` with `costOne` and a duplicate raises AttributeError.
* C63: `nest_cmplx` removes from `store` positions in the sorted list but keeps positions of the unsorted list, so a cycle that is part of nothing larger can be lost.
* C64: the pool drops a candidate whose body, period, length and first time equal those of a stored one although its occurrences differ; the same cycle has two different keys as a cycle and as a pattern.
* C65: from 2000 occurrences on, the positions of chains are relative to their block of 1500 (those of triples are shifted), and the occurrences after the last full block are ignored; five equal occurrences make the search run forever.
* C71: the rows of a series are not sorted unless some time occurs twice; nine equidistant occurrences of one event given in decreasing order make the fold search, and `fit`, run forever (`descending_diverges`).
* C72: the cost recorded for three occurrences is that of the cycle whose period is the smaller gap, but the candidate made from them has the middle of the gaps as period and costs more (`triple_underpriced`: occurrences 0, 1 and 6).
* C75: duplicated occurrences are counted once by `PatternCollection.codeLength` and each time by `codeLengthResiduals`: the ratio of the empty collection is below 100% (`duplicates_underpriced`). `fit` removes duplicated rows, so only other uses of a `DataSequence` are affected.
* C79: the second round of the complex miner may join a pattern with several children and another one; the new tree does not generate the occurrences recorded for it (C59), and the final list of patterns then generates occurrences that are
  not in the data (`fit_complex_wrong`: an exactly regular series of fifteen rows).
* C78 (not violations, but found while modelling `run_combine_horizontal`): with less than 500 new rows, the last new row is reached with the other rows dropped (`pids = [pids[j]]`), so that it is never compared with later rows
  (`run_mine.py:527-532`); the cost of a clique is compared with that of the last pair of candidates looked at by the previous loop, not with the candidates of the clique (`run_mine.py:666-669`); nesting may return a candidate without
  any nesting, which is added again as a pattern because the keys of simple cycles and of patterns differ; if all cycles cost less than one occurrence there are candidates but no row, and `sortPids(None)` raises `TypeError` (excluded by
  `WorldOk.floor`).
* C76: `strDetailed` looks up `nbs['simple']` without default: it raises `KeyError` on a collection without simple pattern (not called by `discover`).
* C58 (not a violation): when the next block ends inside a split of the previous block, `combine_splits` drops that split; with 205 occurrences the last 25 are never examined. `extract_cycles_fold` likewise ignores the tail from 2000 occurrences on.
* C82: `_get_new_label` returns a list as soon as one side has two labels; counting such labels raises TypeError, so that a data vertex with three labels can make `fit` raise.
* C83: a vertex of an embedding is a port only if it has other edges or a label not marked yet; when a row of one vertex was covered before, the labels are marked and the vertex is no port of the later embedding, so that the link between the two nodes of the rewritten graph is lost (`rewrite_order`). An edge singleton that is a self-loop keeps only the port `v2`.
* C85: `compute_rewritten_graph_description` passes the keys of the port usage (numbers of pattern vertices) to the prequential code in place of the usages, so that the value is not the length of a message (`labels_not_counted`) and depends on the numbering of the vertices of a pattern (`port_names_matter`).
* C86: one dictionary holds the code lengths of vertex and edge singletons, so a label used by both has only the length of the edge singleton and the weights sum to less than one (`code_kraft_strict`).
* C87: a pattern that describes the whole graph has code length 0 and is not returned (`only_pattern_lost`); a vertex singleton whose label is also an edge singleton is not returned (`shared_label_lost`).
* C88: a label that is both a vertex and an edge label is counted once in the total, so that its code length can be negative, and with it the description of a pattern (`negative_description`).
* C89: an edge singleton is charged two bits for its port codes that a row with the same pattern is not charged (`edge_singleton_two_bits`; the line for rows is commented out in the source).
* C90: for equal labels a merge can be listed twice, once in each direction, and its occurrences are split between the two (`candidates_twice`); a label in use both as vertex and as edge singleton gives a candidate the wrong pattern (`candidates_mixed`).
* C91: `candidate == candidate.inverse()` is always true, so every candidate with equal labels has its usage halved: a chain of two equal edges, which occurs once, is estimated 0 (`usage_too_small`).
* C92: the same test leaves a candidate with equal labels replaced by its inverse; a later candidate in the other direction then counts as the same (`exclusive_too_large`).
* C94: the numbering relies on the node 0 being the first key. `Pattern(event, r, p)` enters it last; concatenating such a pattern overwrites the new root (`concat_root_last`). The miner never makes such a pattern.
* C96: with 40 to 43 classes `pow(3, k0)` overflows to a negative number, the logarithm is NaN and nothing is ever cut (`many_classes_no_cut`, `many_classes_wrong`).
* C97: if equal values have different labels the shuffle decides their order. A constant column with labels 0 0 1 1 is cut or not according to the random state (`shuffle_matters`).
* C99: the estimate is the true saving plus the larger standard length of the two itemsets, minus twice (standard length of `y` - log2 of its usage) when `y` disappears (wrong sign in that branch). On `[[2, 3], [3]]` the estimate for `{2, 3}` is negative though it saves 0.34 bits, so `fit` never evaluates it (`fit_misses`). The estimate depends on the order of the pair (`gain_order`).
* C100: in a multigraph only the first of the parallel edges is compared: occurrences are missed (`multigraph_misses`) and invented (`multigraph_false_hit`). An edge without label matches every edge in a simple graph because the exception is returned instead of raised (`unlabelled_hit`), and raises in a multigraph. A pattern vertex with the label `("A",)` is not found on a vertex labelled `"A"` (`one_tuple_missed`). `is_isomorphic` is not symmetric (`isomorphic_asymmetric`).
* C101: the offsets are written in minutes and read as seconds: every event comes too early, by 59 seconds per minute (`times_too_early`, `hour_is_a_minute`). The threshold is strict, so an event occurring exactly `min_occ` times is dropped. One date that cannot be parsed drops the user with all events (`one_bad_date`). In the file without marks an application can come twice for one minute (`is_repeats`).
* C102: the check looks at the text: augmented assignments, attributes of attributes, items, `setattr` and another name than `self` pass (`accepted`); comparisons, keyword arguments, comments and names ending in `self` are refused (`refused`). `setdefault`, `|=`, `pop` and `clear` change the collection (`not_frozen`).
* C103: loops, labels used for vertices and edges, and labels that are names of vertices lead to patterns being tested that do not occur in the data.
* C104: for integer times with a common factor of 10, the printed pattern and `sum_E` are in the unit of the mining, `t0` and `period_major` in the unit of the data: times 0, 20, 40, 60 give `[r=4 p=2]` beside a period of 20 (`int_units_wrong`). Names with brackets, and dates with nanoseconds, are printed ambiguously. With `auto_time_scale=False`, `transform` raises AttributeError.
* C106: `cycles` is not reset by `fit`, and `transform` returns before setting it when there is no pattern: `draw_pattern` then draws a pattern of the earlier data with the event names and the time unit of the new data (`draws_old_table`). Before the first `transform` the error is an AttributeError, not the intended message (`cycles` is never initialised; `draw_before_transform`). Dates with nanoseconds are rounded to microseconds (`drawing_rounds`).
* C107: `n_zeros_` is not set by `fit` with `auto_time_scale=False` but read by `transform`: a new miner raises AttributeError, one used before takes the number of zeros of the earlier data (`transform_stale_scale`). `cycles` is not reset by `fit`: exporting after a fit without patterns writes the new data with the patterns of the old data (`export_old_patterns`). `import_patterns` does not set `alpha_groups_`: exporting after an import raises, or writes the data of an earlier fit with the imported patterns (`export_other_data`). `auto_time_scale` is read again by every method, so changing it after a fit changes the times returned (`scale_switched`).
* C108: `display_row` calls `utils.draw_pattern`, which does not exist, so `discover` raises AttributeError whenever a pattern that is no singleton is in use (`discover_raises`). When only singletons are in use it prints all of them under `Non singleton patterns found` too (`discover_singletons`). The text of a pattern gives labels of vertices but not which lines speak of the same vertex (`display_ambiguous`).
* C109: files are found by their name alone, so `fetch_any` with another address and the same file name, or two logs with the same `filename`, return the data fetched first (`shared_name`, `shared_log`). `data_home` is not created if it does not exist (`folder_missing`). A bad answer of a server stays on disk and makes all later calls fail (`bad_answer_stays`).
* C110: `transform` raises ValueError when the data given to it have another shape than those of the fit: another length of the last transaction for lists, another number of transactions for Series; so the same data as list and as Series, or in another order, are refused (`data_matter`). `LCMMax.transform` drops options given by position (`max_positional_dropped`).
* C111: `get_support` keeps its results when the object is fitted on other data, so the order of the code table is that of the earlier data (`refit_stale_order`), and a reused object covers transactions with other itemsets than a new one (`refit_stale_cover`). What holds: losslessness after any history, and everything when the object never had other data (`session_order_partial`, `refit_same_partial`).
* C112: no disagreement. A union whose estimated gain is not positive is never evaluated, so the final table can still be improvable by it; the statement says so.
* C113: no disagreement. C17 (updates with an itemset of the table) is outside of it; with pruning, such an update removes the itemset from the table and loses the items it covered.
* C114: no disagreement.
* C115: no disagreement.
* C116: no disagreement for `auto_time_scale=False`. It is not claimed for `auto_time_scale=True`, where the scale is computed from the absolute times.
* C117: no disagreement in exact arithmetic. For increasing functions that are not changes of unit only the codes of the training rows are claimed.
* C118: no disagreement. Data and labels of different lengths are outside the claim.
* C119, C120: no disagreement.
* C121: the usages are divided by the sum over the itemsets whose items all occur in the new data, not over the code table. So the value is not the probability in the training data (`codes_not_probability`), the same transaction gets another value when it comes with others (`codes_row_dependent`), and all cells are `NaN` when only unused itemsets remain (`codes_nan`). What holds: the exact content of the cells (`codes_content`), bounds for all new data (`codes_bounds`), and the announced values when the new data hold the items of all the used itemsets (`codes_probability_partial`).
* C122: several edge lines for the same ordered pair, or several lines for the same vertex, are not all kept: the last label wins without a warning (`labels_lost`). Labels with a blank are cut at the blank (`label_cut`). An empty line, also at the end of the file, raises `IndexError` (`blank_line_raises`). What holds for all files with clean fields: vertices and edges are those of the lines, with the last label of each (`read_last`); with one line per vertex and per ordered pair the graph is the one of the file (`read_graph_partial`).
* C123: the last component of the standard cover order is `tuple(itemset)`, documented as lexicographic, but it lists a `frozenset` in hash order. Two itemsets of the same length and support are ordered by it, so the code table differs between processes (`process_matters`). `_prune` takes the `min` over a `set`, so that ties are decided by the hash order too (`prune_matters`). Proved for data where no two itemsets of the same length (at least two) are in the same number of transactions (at least one), with the choices of pruning fixed (`same_in_all_processes_partial`).
* C124: the scale is chosen from the absolute times, not from the intervals. An event seen at three consecutive midnights gives no pattern (the scale is the day), one hour later it gives one (`hour_matters`); intervals of 3600 give a pattern as plain numbers and none in a unit `10^9` times smaller (`unit_matters`). Proved for displacements by whole days (`days_irrelevant_partial`, `days_exact_partial`; complex patterns: `complex_days_partial`, `complex_days_exact_partial`) and for units that stay below a second (`unit_irrelevant_partial`).
* C128: `LCM(min_supp=0.07)` on 100 transactions misses the itemsets that occur in exactly 7 of them (`relative_misses`): `/repo/skmine/itemsets/lcm.py:122` multiplies in floating point and the product is above 7.
* C129: durations with nanoseconds from 203 days on can be printed one microsecond too short (`duration_off`); starts after 16 March 2242 can be drawn one microsecond too late (`start_off`).
* C130: the order of the names matters: candidates at the same time and with the same cost are ordered by the numbers of their events, which are ranks of the names. With the names in the reverse order the patterns have other occurrences (`complex_names_differ`, with simplified costs that are the same for all events).
* C131: between two consecutive doubles the midpoint is rounded to one of them, to the larger one in half of the cases; then the cut that was found separates nothing (`codes_merged`).
* C132: `3 * 0.1` is rounded up, hence with `min_growth_rate=3, min_supp=0.1` an itemset in exactly three tenths of the second collection and not in the first one is missed (`emerging_missed`). The default parameters are exact (`emerging_default`).
* C133: false for renamings that do not keep the order of the items: ties in the standard cover order are broken by names, hence `{1, 3}` or `{2, 3}` gets the transaction 1, 2, 3 according to the names (`names_matter`). Proved for renamings that keep the order.
* C134: false. On a chain of three edges and two edges with the same end, all with one label, `fit` raises TypeError (`fit_raises`): after the second candidate is accepted, the first one is generated again, and `utils.MyLogger().debug(...)` (`graph_mdl.py:155`) calls a logger object. Proved (`fit_steps_partial`, `total_length_partial`): on data without loops and parallel edges and with at most one label per vertex, everything the search computes from a table is defined, so `fit` can raise only where a candidate is met again, where a row is pruned twice (C46) and where candidates are generated with the singletons of a cover that was given up.
* C135: false. Covers write `cover_marker` and `cover_mark` into the graph of the caller and never remove them. If the first graph was covered exactly once more often than the second, the marks of the first look like those of the new cover: the first cover of `fit` leaves out all its edges and labels (`union_loses`), so no candidate comes from it (`union_witness`). Proved in all other cases (`union_cover_partial`).
* C136: false. Ports of the rewritten graph are searched by name among all nodes (`code_table.py:745-747`), so a label that is the text of a vertex is taken for the port: with the edge labels of `label_named_vertex` there is no candidate at all, and one with another number for the vertex. networkx lists embeddings in an order that depends on the hashes of the vertices, and the greedy cover depends on that order (`embedding_order_matters`). Proved otherwise (`vertex_numbers_partial`).
* C137: holds as stated. Beside it: the length is at most the initial one also after a timeout if it does not depend on the order of rows that compare as equal (`clock_improves`, false otherwise, C46), and the search ends on the data of C105 (`clock_ends`).
* C138: false by less than one part in 2^44 (`rounding_matters`: four occurrences, two segmentations whose costs round to the same double). Proved: the cost is at most `1 + 2 ^ -44` times every other (`dp_double_partial`), and `((1 + u) / (1 - u)) ^ n` times for `n` occurrences and any rounding with relative error `u` (`dp_rounded`).
* C141: false by less than one part in 2^32 (`rounding_overpays`: seven occurrences of one event, pattern dearer than the occurrences is selected because their mean is rounded up). Proved with factors `1 + 2 ^ -32` and `1 - 2 ^ -32` (`selection_double_partial`), and `(1 + 2 ^ -53) ^ N / (1 - 2 ^ -53)` for `N` occurrences (`selection_rounded`).
* C142: false for gaps above 2^53 (`period_off`: three gaps of 2^53 + 1 get the period 2^53). Proved when no gap exceeds 2^53 (`computePeriod_double_partial`) or, more generally, when all gaps are doubles (`period_doubles`); up to 2^52 the period is that of exact arithmetic (`period_exact`); for gaps up to any `B` the sum exceeds the least one by at most `B / 2^53 + 1` per gap (`period_near`).
* C143: proved for two candidates (`join_saves_partial`). False for three and more (`join_loses`: the code compares a clique with the last pair looked at in an earlier loop, not with its own members, and does not count what is left out). The costs of the witness are made up; the final selection (C38) is not affected.
* C144: proved when the rows are in the order of time, or some row is repeated, in which case pandas sorts the rows by time (`rows_same_partial`). False otherwise: nine equidistant occurrences from the last to the first make the miner run forever, in the order of time they do not (`row_order_matters`). When times, but no rows, are repeated, what pandas does with unsorted rows depends on its version; the condition leaves this case out.
* **C146** fails for patterns of exactly three occurrences: `cost_triple` prices the smaller of the two distances as period, the pattern has the mean distance (C72). One event at times 0, 48, 100: the pattern is selected, and the series costs more with it than without (`compression_fails`); the loss is at most one bit for each such pattern (`compress_bits`).
* **C148** fails in the same way as C146, for any number of rounds (`complex_compression_fails`).
* **C149** fails when the change of names changes the alphabetical order of two labels (`label_order_matters`): two singletons are merged in the order of their labels, which numbers the vertices of the pattern. It also fails when a label is the name of a vertex (`label_named_like_vertex`), as in C136.
* **C150** fails for patterns with loops (`loop_is_vertex_singleton`), with an edge without label (`two_edges_singleton`), and for edges between vertices that are not numbered 1 and 2, where the test raises KeyError (`edge_singleton_raises_on`). The program itself does not call the two tests.
* **C151** fails for every rewritten graph with a port: the name of the port is a key of the summary, with the ports of the node made before it (`infos_list_ports`).
* **C153** fails for the names of events: the recursive call drops `map_ev`, so the outline of a pattern shows the printed events whatever names are given (`names_never_shown`); and for events with line ends (`outline_ambiguous`).
* **C154** fails for unreadable keys, which get the name of the whole pattern (`br_broken`).
* **C155** fails for every data frame with a repeated column name: `transform` raises on the frame just fitted (`repeated_names`).
* **C157** fails for tables with a zero label: `fit(X, y)` drops these rows although `y` is documented as ignored (`labels_not_ignored`).
* **C158** fails for the global option `use_inf_as_na` of pandas: it stays set after a rejected table (`option_left_set`) and is cleared by an accepted one (`option_taken_back`).
* **C159** fails with a time limit: `SLIM.__copy__` leaves out `max_time` (`copy_loses_limit`).
* **C160** fails for arrays: `SlimClassifier.fit` reads the values as items, `predict` reads the array as a binary table (`predict_array_smallest`, `array_and_list_differ`).
* **C161** fails for `strDetailed`: it raises `KeyError` for every collection without a simple pattern (`printed_raises`).
* **C162** fails for data frames: `SlimClassifier.fit` learns from the letters of the column names and never reads the values (`frame_values_ignored`, `frame_fit_raises`, `predict_frame_smallest`).
* **C163** fails for events called `NA`, `None`, `null`, … (`na_event_missing`) and for files of single events with empty lines (`empty_line_shifts`).
* **C165** fails out of bounds: `get_node_label` returns the whole tuple of labels for an index past the end (`index_past_end`) instead of raising.
* **C166** fails: `SLIMVectorizer.fit` raises whenever `stop_items` is given (`stop_fit_raises`).
* **C167** fails: `SLIMVectorizer.transform` chooses its columns from the batch, so that a row depends on the other transactions (`batch_changes_row`).
* **C168** fails for transactions with repeated items: the density exceeds 1 (`density_above_one`).
* **C171** fails on lists with less than two entries: `get_top_p` returns the positions 0 and 1 without looking at the length (`second_missing`).
* **C174** fails on the singletons: `display_ct` writes the code length of a singleton in the column `Pattern usage` and leaves `Pattern code length` empty (`singleton_usage_wrong`).
* **C177** fails with ties: `generate_cut_point` cuts between equal values of different classes, and the interval above the largest value has no sample (`code_unused`).

(This list is refined as the proofs progress; see the notes in MANIFEST.json.)

## Parts of the repository not modelled

`skmine/bench`, the rendering done by matplotlib and graphviz (the list of drawing statements is modelled, C106), the network and the
parsers of pandas (parameters of C101 and C109), timing reports and logging, and helper functions that nothing in the package calls
(`get_top_p`, `strDetailed`).
