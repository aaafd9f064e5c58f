# Formal model of daormar/thot in Lean 4

## Layout

* `properties.jsonl` – the properties (C01 …), in terms of the API.
* `lean/Verif/<Comp>/Model.lean` – executable model; every definition cites file and lines in /repo.
* `lean/Verif/<Comp>/Lemmas.lean` – helper lemmas (not part of the claims).
* `lean/Verif/<Comp>/Props.lean` – small specification + the property theorems + non-vacuity examples.
* `MANIFEST.json` – property → theorem names, status.
* `seeded/LOG.jsonl` – mutation experiments: wrong edits of the model and which theorems rejected them.

## Trusted base

* Lean 4.33.0 kernel. Theorems use at most `propext`, `Classical.choice`, `Quot.sound`
  (checked with `#print axioms`; no axioms of our own, no compiled-code tactics).
* The reading of the C++ code: nothing was built or run. Every model definition cites the lines it models.
* C++ library behaviour taken as given: `std::map`/`std::multimap`/`std::multiset` ordering and
  stable insertion at the upper bound of equal keys, `std::vector`, `std::string`, `realloc`/`memmove`,
  pthread mutex mutual exclusion.
* Numbers: `unsigned int` in Bitset is `BitVec 32`. Sizes and indices elsewhere are `Nat` (no overflow of
  `size_t`/`unsigned int` sizes is modelled unless stated). Scores/counts (`double`/`float`) are modelled by
  exact numbers (`Int`, `Rat`, or an arbitrary linear order as stated per component): rounding, NaN and infinities are NOT modelled.
* Undefined behaviour (out-of-range index, dereferencing `end()`) is an explicit `none`/error outcome where a
  property is about it.

## Plan per property

| id | model | proof |
|----|-------|-------|
| C01 | words as `List (BitVec 32)`, set/reset/test by word/bit | refinement to `Nat → Bool` by induction over op lists |
| C02 | count loop with mask shifting | loop invariant; equals `countP` over `range J` |
| C03 | comparison loop from the most significant word | equals comparison of the integer value |
| C04 | `++` carry loop, `>>=` in-place loop | value+1 mod 2^(32W); bitwise spec |
| C05 | `operator+` loop | counterexample theorem + partial for operands whose carries the code handles |
| C06 | equality loop, `set(void)` | counterexample + partial (whole words) |
| C07/C08 | sorted list + binary search on indices with UB = none | sortedness invariant, refinement to lookup function |
| C09–C14 | matrix as `Nat → Nat → Nat` with dims, loops as folds, while loop with explicit fuel shown sufficient | monotone growth bounded by union; counterexamples for `-=` and getAligVec |
| C15–C17 | strings as `List Char`, loops as recursion | induction; counterexample for getLastWord |
| C18 | multimap as list sorted by score descending, upper-bound insertion | sortedness, permutation, stability |
| C19/C20 | two maps as association lists | invariant over op lists; counterexample for gaps |
| C21/C22 | first-child/next-sibling tree | refinement to `List K → Option D`; copy model without key → counterexample |
| C23 | byte stream + adversarial segmentation | round trip for complete reads; counterexample for short reads |
| C24 | state machine of atomic calls | invariant over call list |
| C25–C27 | three maps, op list | sums as finite sums over recorded keys; counterexamples |
| C28/C29 | base-254 digits, byte strings, sorted key-value store | round trip, order isomorphism, range-scan exactness |
| C30–C32 | DP table filled row by row, trace-back | DP = min over edit scripts |
| C33–C36 | multiset as sorted list; dictionary; rec-info map | invariants over op lists; counterexample for removeLast |

| C37 | conversion constructor/to_ulong with out-of-object access = none | value equality for N > word size, none otherwise |
| C38 | operator= with explicit aliasing of the operands | case split on aliasing |
| C39 | strings as lists of characters | case analysis |
| C40 | stableSort = merge sort by (score,data) + reinsertion | sorted permutation, uniqueness for a total order |
| C41/C42 | character loops over the line buffer; POSIX getline | equality with cut-at-separator spec; counterexample for unterminated last line |
| C44 | same multi-stack model, iterators as (class, handle) with invalid use = none | invariant over reachable states; counterexample for shrinking |
| C45 | top with the default-hypothesis score as parameter | agreement with pop; counterexample |
| C43 | print and load of the vocabulary file through the C41/C42 models and atoi | round trip by induction over entries |
| C46/C47 | Trie as first-child/next-sibling tree, iterator as explicit stack | iteration = post-order listing; counterexample for clear |
| C48–C50 | WordPredictor over the trie model | invariant "trie holds the word counts"; counterexamples |
| C51–C54 | EditDistForVecString (matrix, trace-back, cost cache) and the corrector loops of _editDistBasedEcm | DP = min over word scripts; shape of the trace-back in the last column; counterexamples |
| C55 | `WordGraph` (arcs, flags, states, scores as rationals), loop of `calcPrevScores` | invariant over the arc loop: prev = best over paths using arcs below i; chain of best predecessors |
| C56 | `bestPathFromFinalStateToIdx`, following best predecessor arcs | the followed chain is a path whose score is prev of the final state |
| C57 | `calcRestScores` (reverse loop) | invariant over paths that use arcs from r on |
| C58 | `prune` | prev and rest scores decompose the best complete path through an arc |
| C59 | `obtainUsefulStates`, `obtainWgComposedOfUsefulStates` | reachability invariants forward and backward; renumbering is injective; path bijection by labels |
| C60 | `orderArcsTopol` (while loop with fuel, shown enough) | emitted sequence is a duplicate-free list of arc numbers with closed predecessors; progress for acyclic graphs |
| C61 | all mutators of `WordGraph` as an `Op` history | `WF` preserved by each operation |
| C62 | `obtainNbestList`, `NbSearchStack` | A* invariant: every complete path is found or extends a stacked hypothesis with an admissible key; measure for termination |
| C63 | `setCompWeights`, alternative weights | simulation between the two loops |
| C64 | `ThotDecoder` mutexes, condition variable, user table; each request as a list of atomic instructions, arbitrary scheduler (`Decoder/Model`) | forward simulation with an explicit commit order (`Ser`): a session commits when it takes the user mutex, an atomic request when it passes the wait |
| C65 | as C64 | the simulation run in two parts |
| C66 | accesses of each instruction to locations (`RaceProps`) | mutual exclusion invariant `Inv`; counterexample schedule for the vectors |
| C67 | as C66 | users are only removed by `clearTrans`, so `look` never grows the vectors in a session |
| C68 | as C64 | lock order argument on the invariant; counterexample with the early return of `initUserPars` |
| C69 | as C64 | measure decreasing with each step, wakeups accounted for by broadcasts |
| C70 | `release_user_data` | nothing is freed without it; counterexample schedule |

Modelling assumptions of C64-C70: every instruction is atomic and memory is sequentially consistent (C66/C67
justify this for race-free executions); sessions (`translateSentence`, `sentPairVerCov`, `startCat`,
`addStrToPref`, `setPref`, `resetPrefix`) do not change the shared state; `user_id_new` and
`printModelWeights` (which reads the data of user 0 holding only `atomic_op_mut`) are not modelled.

| property | modelled | proof |
|---|---|---|
| C71 | main loop and worker threads of `thot_server` with the counter, mutex and condition variable (`Server/Model`) | invariant: counter = pending threads minus the one not yet counted |
| C72 | as C71 | progress by cases on the owner of the mutex; cost function |
| C73 | as C71, with the log of `close` | invariant; counterexample with a failing `pthread_create` |
| C74 | `extractConsistentPhrases`: bitset coverages, cells, extensions, validity test, triangular table, vector of phrases (`PhrExtract`) | each cell equals the body of the loop on the final table; coverage invariants by induction on the length of the cell; valid coverage = interval with no link going out; the entries of the table map injectively to pairs of segments |
| C75 | same | a choice of one coverage per target word whose union is the segment (left- or right-maximal extension); induction on the cell length shows the union is in the cell |
| C76 | same | from C74 and counting of links |
| C77 | `Meta/Model.lean`: the whole of TranslationMetadata.h (tags, tokeniser, annotation scanner, constraint map) | spec: `Toks` (tags and words of a string) and `Parse` (left-to-right reading), both proved unique; the scanner is proved to compute them by strong induction on the unread suffix; round trip for written annotations |
| C78 | same | the sentences read without an out-of-bounds access are characterised; counterexample: one blank |
| C79 | same | `Honours` spec per constraint; induction over segments and words |
| C80 | `Search/Model.lean`: extract_gaps, get_num_gaps loops | `MaxGap` spec; induction over the positions with the gap being crossed as state |
| C81 | expand in the four modes over an abstract model (options, phrase scores, extension scores arbitrary), hypothesis data, predecessor, completeness | `WfHyp` invariant by induction on `Reach`; counting covered positions |
| C82 | expand, text with constraints (two passes of replacements), constraint filter, over the model of TranslationMetadata (C77-C79) | invariant `Kept` (touched constraints translated exactly); text computed from it |
| C83 | same | a gap, its first word, constrained or not; counterexample: `UNKNOWN_WORD` as constraint translation |
| C84 | expand_ref / expand_ver with length limits and gap counting | invariant: prefix of the reference with room for the remaining gaps |
| C85 | `Search/DecModel.lean`: push, pop, decode loop, getNextTrans over the model of SmtMultiStackRec (C40…) | loop invariants `SInv`, `LInv` (all stored hypotheses reachable and safe) |
| C86 | same | `OInv`: every complete hypothesis is dominated by an extension of something stored (recombination handled by the contract of states), `Ranks`: a popped complete hypothesis is at least as good as everything stored; counterexamples run in the kernel |
| C91 | same as C82 | sorted insertion and pruning characterised by counting |
| C87 | expand_prefix and the comparison with the prefix, text with a prefix | invariant: the target words are a beginning of the prefix, or begin with it; a gap can always be translated by the remaining prefix; counterexample with constraints left from an earlier call |
| C92 | `Search/DecModel.lean` | everything stored is bounded by the score of the popped complete hypothesis, kept by expansions of admissible models; counterexample with I = 2 |
| C88 | `Search/Cache.lean`: the expansion functions with their five tables threaded through | invariant `Valid`: every entry is the value of the function without caches for its key; the functions depend on the hypothesis only through the key |
| C89 | `Search/History.lean`: calls of the decoder on the state kept between calls | the result depends on that state only through the stack size, the flag of the container and the constraints; two counterexamples run in the kernel |
| C90 | `Search/Heur.lean`: initHeuristicLocalt (the loops over the table), getLocalTmHeurScore | spec `SeqValue` (values of all sequences of phrases); invariant of the rows and columns filled; admissibility by splitting the sum over the gaps at the segment covered |
| C93 | search loops with the word graph (`Search/WgModel.lean`): push with predecessor, arc creation, initial score, final states, post_trans_actions; on top of the models of the container with recombination (MultiStack), of the search (Search) and of the word graph (WordGraph) | invariant over the search: graph well formed, indices of the dictionary exist, every dictionary entry and stored hypothesis has a path with its text and score, every arc stands for an expansion; text of an extension is the old text plus the new words (`WgText`) |
| C94 | the same | invariant: every state of the dictionary is stored, pending, or all its extensions have arcs; room from the total weight of the stored hypotheses |
| C95 | the same | invariant: all arcs leave states with at least c words left and all stored hypotheses have at most c words left |
| C96 | `TrieVecs/Model.lean`: TrieVecs.h insert/find/modify and the stack of the iterator | invariant "children sorted by key"; look-up after insert by induction; iteration = post-order traversal, by induction on the trie |
| C97 | `LangModel/Model.lean`: the word encoder and the calls that add words | invariant "two maps are inverse, no code above the last one", kept by every call; induction on the history |
| C98 | `LangModel/Model.lean`: collectNgramCounts, the map of counts, updateNgramInfo, the two tries of counts | number of times an n-gram is accumulated = number of suffix positions in the framed sentence; fold over distinct keys; induction on the history |
| C99 | same: Jelinek-Mercer interpolation | sum over the vocabulary by induction on the history of words, from C98 (history count = sum of continuations) |
| C100 | same: language model states and sentence scores | invariant: the state is the codes of the last n-1 words of the padded prefix |
| C101 | same: print through the iterator of the trie, load through addTableEntryHigh | lines printed = n-grams with positive count (C96); loading lines that agree with a function gives the function |
| C102 | same: loop of perplexity | induction on the corpus |
| C103 | `Hmm/Model.lean`, `Hmm/Viterbi.lean`: viterbiAlgorithmCached, bestAligGivenVitMatrices, obtainBestAlignmentCached, in the log domain with exact rationals | invariant over the two loops: each cell is the maximum of the floor and of the scores of the alignments of the prefix that end there, and the predecessors trace an alignment of that score |
| C104 | the same with the cache of transition log-probabilities | invariant "every defined cell holds the true value" |
| C105 | `Hmm/Forward.lean`: forwardAlgorithm in the probability domain | cell = sum over the alignments of the prefix, by induction; spec enumerates all alignments |
| C106 | the same with calcBetaMatrix and calc_lanji | alpha times beta = sum over the alignments through the cell |
| C107 | lexical and transition probabilities of both models | sums per context, then induction on the length of the target sentence |
| C108 | noisyOrLgProb | products of factors in [0,1] |
| C109 | `Hmm/Suff.lean`: the memory of expected values, the accumulation of sufficient statistics, the update of the tables | invariant over the history: the memory holds the last values of each pair, numerators are the sums; lexical and alignment cells are instances. Observations in the code not covered: transition counts from null states are stored under positions above the source length that the probability never reads; the first-word expected values of null states are copies of the first one; a source word spelled `NULL` changes the source length computed by getSrcLen; training an empty corpus loops over the range (0, UINT_MAX) |
| C110 | `SentHandler/Model.lean`: the three streams (on the model of AwkInputStream), the cursor, the loops of access, the added pairs | invariant "all streams have read one line more than the cursor"; every call agrees with a list; counterexample run in the kernel |
| C111 | readSentencePairs with its counting loop and the unsigned arithmetic of the range | induction on the lines read |
| C112 | printSentPairs | C110 for the printing handler and for the reading one; fields of the joined words are the words |
| C113 | `Metrics/Ngram.lean`: greedy matching of n-grams with marks | the marks are a maximal matching; equal to the clipped sum by induction on the first sentence |
| C114 | `Metrics/Bleu.lean`: calc_bleuf over ℝ (Mathlib; axioms propext, Classical.choice, Quot.sound) | sums over lines; exp/log algebra |
| C115 | MiraBleu statistics, background with decay and truncation | as C114; counterexample with one word |
| C116 | `Metrics/Wer.lean`: the columns of MiraWer::ed | columns = Levenshtein table; minimality from C30 |
| C117 | `Metrics/Chrf.lean`: calculate_chrf on characters | bounds of the F measure with P > 1 possible, recall ≤ 1 |
| C118 | `Metrics/Gtm.lean`: common blocks, any sorted permutation, greedy cover | the cover is a maximal matching of equal words |
| C119 | `KbMira/Model.lean`: HopeFear, MaxTranslation for an abstract scorer | invariant of the fold: first argmax |
| C120 | the update of the weights | quadratic optimization over ℚ |
| C121 | update, updateClosedCorpus with restarts and early stop | invariant: accumulated weights are sums of the vectors seen; counterexample with a null scorer |
| C122 | sampleWoReplacement | swaps are permutations |
| C123 | IBM 1/2 scores in the probability domain | product of sums = sum over alignment functions of products, induction on the target length |
| C124 | obtainBestAlignment | per-position maxima maximize the product |
| C125 | calcLgProbForAlig through getAligVec | counterexample; exact value of the code's result |
| C126 | partial probability vectors and heuristic | induction on chunks |
| C127 | incremental/batch training over the HMM sufficient-statistics machinery | invariant: tables are sums of contributions of the last visit |
| C128 | calcLgProb over all sentences of a length | exchange of sums and products |
| C129 | batch iteration, weighted likelihood | generic EM inequality (Gibbs) over the reals; counterexample for the unweighted one |
| C130–C132 | WeightedIncrNormSlm over ℚ | Welford recurrences = batch estimates; telescoping sums |
| C133 | merge tools over any linearly ordered keys; the queue returns any top element | invariant of the queue (remaining records, sorted emission) + loop invariant of sums seen |
| C134 | prune tool, sort relation | groups = filter by source; kept prefix of a sorted list |
| C135 | filter tool | counterexample (listed pair missing); induction when all listed pairs are present |
| C136 | IncrLexTable over association lists | last-write history spec; round trip through records |
| C137 | WgProcessorForAnlp and PfsmEcmForWg, scores as rationals | invariant of best predecessors over all calls, trace back gives a path, C54 for the correction |
| C138 | the two n-best lists and their merge | bounded insertion = prefix of the stable sort; merge of prefixes |
| C139 | shrinking and extension of the tables | the state after a call is a function of the prefix (tables as functions of the position); counterexample with a repeated word |
| C140 | score tables and trace back | each traced cell carries an edit script; counterexample with two arcs between the same states |
| C141 | rejected words, excluded arcs | first arc of the best path is not excluded |
| C142 | `Feat/Model`: the features of the log-linear model (LM, word penalty, jumps, source/target lengths, phrase models) and their sums, over any commutative ring | loops over new segments telescoped into differences of closed formulas; induction on the sequence of extensions |
| C143 | `Feat/Model.hypState` | increments of every feature depend on the state only; the gap-dependent length model depends on coverage because the next covered position after an uncovered one starts a phrase; counterexample with two LMs |
| C144–C146 | `Feat/HeurModel` | closed forms of the heuristic vectors; counterexamples |
| C147 | `Feat/HeurModel`: equivalence classes, order of states (uses C03) | induction on phrases; lexicographic order |
| C148 | `Ecm/Model`: `PfsmEcm` over the reals | induction on the history of calls; field arithmetic for the probabilities; counterexample with a vocabulary of size 1/10 |
| C149 | `Ecm/Model.correct` (uses the edit distance model, C54) | the alignment has one segment; the restored blank by cases |
| C150 | `Cat/Model`: the interactive session of one user; engine, pre/post-processor and predictor are parameters | invariant on the total prefix by induction on the history; induction on the merging loops |
| C151 | `Cat/Model.step` | the state after any continuation differs from the start in the prefix only |
| C152 | `Cat/Model.postprocWithCriticalError` with out-of-range reads as `none` | lengths of token lists (C15, C16) |
| C153 | `Cat/Model.robustMerge` | induction on the tokens of both texts |
| C154 | `Cat/Model.expandLastWord` | case analysis |
| C155 | `Srf`: `segmBasedExtraction` with `obtainBpSet`, the memoised recursion `fillSrfNodeInfoMapRec` over sets of uncovered positions (128-bit words), `BpSet::incrPair/obtainUnion`, and the output loop; exact numbers in place of logarithms | enumeration `segs` of the segmentations in the order of the recursion; invariant of the memo table (all finished nodes right, smaller nodes untouched, the current node right for the pairs tried so far); `segs` is shown to be duplicate free and to contain exactly the segmentations of the specification; counterexample for sentences of 101 words |
| C156 | HatTable/Model: every public function of HatTriePhraseTable over one byte-keyed map (list order = arbitrary iteration order) | invariant linking the trie with a three-map reference, induction over histories; refinement against the PhrTable (STL) model |
| C157 | prefix scan, full scan with `(int)` truncation, N-best ranking via Nbest | fixed-width keys: key prefix = phrase prefix; decoding of pair keys; counterexample with count 1/2 |
| C158 | begin / ++ / deref loops | induction over the suffix lists; permutation of keys for size |
| C159 | `Verif/PhrTrain`: training loop, filters, storing of phrase pairs in the trie table through the two vocabularies; extraction from `Verif/PhrExtract` and `Verif/Srf` | the calls of a training are a list of increments; a reference with three maps on word sequences is related to vocabulary + trie by an invariant (`Rel`), then sums are rearranged |
| C160 | `Verif/PhrTrain`: both filters, with the map of counters | the map after collecting has the initial count plus the number of occurrences |
| C161 | `Verif/PhrTrain`: printing and plain-text loading of the phrase table; `printf`/`atof` are parameters; file taken as complete (the code does not close it) | printed rows characterised for any iteration order (C157, C158), each line parses back (fields of joined words), loading is a run of `add`s; full statement refuted (EPSILON) |
| C162 | `Verif/AligFile`: GIZA printing and the reader (awk stream, brackets, link positions, early return); `atof`/`printf` of the repetitions are parameters | induction on words and links; reader state invariants; full statement refuted (word `({`) |
| C163 | matrix format printing and reading | rows read back in reverse order, induction on rows and columns |
| C164 | non-exhaustive operations on files, transposition, reuse of the matrix operations of `Verif/WordAlig` (C09–C14) | induction on the two lists of entries, through the round trip of C162 |
| C165 | thot_alig_op.cc parseAlignOpsFile: lines, output file used as next input | induction on lines with the output file as state; full statement refuted |
| C166 | `Verif/AligFile/ContModel`: container (vocabularies with growing ids, map ordered by the criterion, infos per target sentence), six operations, compact printing, file of operations | the container holds a map on sentence pairs (`Holds`); ids decode injectively; vocabularies only grow; induction on both files and on lines |
| C167 | printing that is not compact (second reading of the file) | as C166; full statement refuted for `-gt` |
| C168 | `WordGraph::print` and `load` on file contents (formats and `atof` are parameters) | fields of the printed lines; `addArcWithScrComps` described by C61; loading is defined exactly if the arcs are loadable |
| C169 | as C168 | simulation between the paths of both graphs; useful states by C59 |
| C170 | `stringAssociatedToHyp`, output loop of `nbSearch` | C62 for the paths, sums exchanged for the scores; counterexample with arcs without components |
| C171 | `WgHandler::load`, `print`, `pathAssociatedToSentence` | fold over the lines, last line of a sentence wins |
| C172 | `logFactorial`, `logCombmn`, `logNumbPermsOfTwoElems`, `mp_*` (exact reals and integers, no rounding; Mathlib `Real`) | induction on the loops; binomial identities; counterexample for `l=0` |
| C173 | `poisson`, `geom` and their cdfs | loop = logarithm of the formula; exponential and geometric series |
| C174 | `triang_cdf` | cases; derivative of the two pieces; counterexample above `b` |
| C175 | `lns_sum`, `lns_sumlog`, `lns_sub`, `lns_sublog` on doubles with infinities and NaN (no rounding) | case analysis; counterexample for two zeros |
| C176 | `SegLenTable` (arrays as functions, index 101 = UB), `load_seglentable` through the Awk model, floor of `_incrPhraseModel::pk_tlen` | fold over the lines: count = last entry, margin = sum; exchange of sums; counterexamples (length 101, repeated entry) |
| C177 | `printSegmLengthTable`, `load_seglentable` | printed text = file of the positive entries; C176; counterexample for the constant table |
| C178 | `SrcSegmLenTable` (exact reals) | evaluation of the logarithms; geometric series; counterexample (lengths from 1 on) |
| C179 | `TrgCutsTable` | as C178; sum over the integers is `2-p` |
| C180 | `TrgSegmLenTable` (loop over the previous segments, 32-bit subtraction, loading) | invariant of the loop: next start = minimum; cardinality of the set of possible ends; counterexample when another segment ends the gap |
| C181-C185 | `LevelDbNgramTable`: byte keys, stored text, reserved key, range scan, iteration (`NgramDb/Model.lean`); LevelDB = map ordered bytewise, rounding of printed counts a parameter | invariant relating the database to a table of counts computed from the history; range scan exact by the order of the encodings (C28) |
| C186, C187 | thot_ngram_to_leveldb and `vecx_x_incr_enc::load` on text (`NgramDb/Model.lean`) | numbering = position in the list of first appearances, induction over lines; token reader on the printed text |
| C188 | `Dhs/Model`: the downhill simplex as a computation that asks for values, the file of images read with `getline`, the loop of thot_dhs_min.sh | replay of a prefix of the values = position in the trace of the uninterrupted run (induction on the computation); induction on the remaining points for the script |
| C189 | idem | each iteration asks for 1–5 values, induction on the iterations |
| C190 | idem | invariant: the recorded value of the first smallest vertex is accurate and not above any value obtained; preserved by replacement and by the shrink with stale values |
| C191 | idem | full statement refuted by a shrink in three dimensions; proved without shrink, and for n ≤ 2 with different values |
| C192 | `xToVarVec`, `genFixedVarsBoolVector`, `gen_init_sol` | induction on the variables; all points have n coordinates (invariant of the iterations) |
| C193 | idem; specification `Step` with middle points and ranks only | case analysis against the program; counterexample with two equal worst values |
| C194, C195 | on-line incremental training (`StdFeatureHandler::trainAligModel`, `addNewTransOpts`) over abstract alignment models, with a log of the samples used | induction over the calls; arithmetic of the interlaced samples; invariant: statistics kept = last extraction; counterexamples E=2, R=3 |
| C196, C197, C198 | `minibatchTrainFeatsSentPair`, `batchRetrainFeatsSentPair`, `clear` as lists of operations on the models | induction over complete blocks; counterexample for `clear` with pending sentences |
| C199 | `calculateNewLearningRate` over the reals | Mathlib p-series, monotonicity of `rpow` |
| C200 | `updatePmLinInterpWeights` on top of the model of the downhill simplex | replay lemma (C188) and C190 |
| C201 | `PhrLocalSwLiTm::incrScore` (`SwLi/Model`), components as a structure of eight values | telescoping: loop invariant over the new segments, induction on the groups of extensions |
| C202 | the table of length ranges filled in the order of the loops (`SwLi/Len`) | the fill order respects dependencies; induction on the length of the segment; specification = inductive predicate on segmentations |
| C203 | `sumSentLenProb` with its table, ranges per mode (`SwLi/LenProb`, `SwLi/Interp`) | invariant: stored values are −1 or right; monotonicity of the logarithm |
| C204 | interpolation on doubles with infinities (`SwLi/Interp`), stored scores as association lists with a history of queries, trainings, starts | C175; invariant on the table with a flag "trained since the last start" |
| C205 | `setWeights`/`getWeights`/`smoothLlWeight` | case analysis; specification: closest admissible value |
| C206, C207, C208 | ModelDescriptorUtils on text, lines and fields of the awk model (`Desc/Model`) | loop invariant for the last slash; fields of joined words (C41, C42); counterexamples by evaluation |
| C209 | `ThotDecoderClient.cc` requests (bytes written, how the answer is read), `thot_server.cc` accept loop and `process_request_switch` over the socket model; the decoder is an arbitrary function of its call history | per request: the server's decoding of the written bytes (`rStr`), then induction over the requests; counterexample with a split delivery |
| C210 | same, connections with arbitrary bytes | invariant over connections: count of initialisations and position of calls |
| C211 | same; several requests on one connection | the stream is empty after the first answer |
| C212 | `JsonTranslationMetadata.h` on a parsed JSON value (picojson is not modelled): greedy placement of the tags | induction on the scan: first occurrences, and exchange argument for the maximality of the number of tags placed |
| C213 | same, outcome with exceptions and out-of-bounds reads | case analysis; exact characterisation of the exception |
| C214 | `thot_check_constraints.cc`: parsing of the alignment information, verdicts | print/parse round trip of the alignment line and C79 |
| C215 | `OnTheFlyDictFeat` as a map of maps (`Common/SMap`: `std::map` is a list with increasing keys) | induction on the history: the dictionary is that of the additions since the last clearing; look-up = last addition |
| C216 | `DictFeat::load`, `extractEntryInfo`, look-up and options; an unassigned score is `none` | `extractEntryInfo` succeeds exactly on entries; induction on the lines; counterexample: a line that is not an entry |
| C217 | `LevelDbDict`, `LevelDbDictFeat`, `thot_dict_to_leveldb`; LevelDB is a sorted map from byte strings to byte strings | keys are injective and monotone in the target for printable words; the scanned range is exactly the keys of the source; counterexample: a tab inside a word |
| C218 | `options.cc`: readers of one value, two values, sequences, flags, `isOption`; `sscanf` is an arbitrary partial function | induction on the arguments; counterexample: a value that is not a number |
| C219 | `extractParsFromFile` on top of `awkInputStream` | comment test = prefix; lines of the file (C42) |
| C220 | `takeParameters` and `takeParametersGivenArgcArgv` of `thot_ms_dec` and `thot_ms_alig` | each reader applied twice = precedence; counterexamples: `-v` in the file, `-wgp` without `-wg` |
| C221 | the argument loop of `ThotDecoder::initUsingCfgFile` | induction on the lines of the file; counterexample: an option set twice; `-sp` without value is undefined behaviour |
| C222 | `IncrLexLevelDbTable`: LevelDB is a sorted map from byte strings to byte strings; floats are 32-bit patterns | keys are injective and monotone (C28); invariant over the history; counterexample at the last word index |
| C223 | `load`, `print`, `loadBin`, `printBin` and `thot_lextable_to_leveldb` on a disk with files and databases | the printed records are those of the history; re-reading gives the same last values; counterexample: an existing database |
| C224 | `load`, `init`, `clear` of `LevelDbPhraseTable` and `load_given_prefix`, `clear`, `print` of `LevelDbPhraseModel` on a disk, contents abstract | case analysis and induction on the history; counterexample: loading twice |
| C225 | `thot_ttable_to_leveldb` on top of the model of `LevelDbPhraseTable` (C29) | `extractEntryInfo` succeeds exactly on entries; induction on the entries; counterexample: fractional counts |
| C226 | `FastBdbPhraseTable`: the B-tree is a sorted map ordered by the comparison function on decoded keys; the buffer of the cursor is modelled | invariant over the history; the scan stops exactly at the end of the target phrase, also with stale words in the buffer; counterexample: long pairs |
| C227 | same: auxiliary counts and the flag kept in the record of the empty pair | invariant: the flag implies that auxiliary counts are the counts of the sources; counterexample: zero counts |
| C228 | `thot_ttable_to_fbdb` | the tool is a run of the history of entries; counterexample: an existing database |
| C229 | `AligTab/Model.lean`: IncrHmmAligTable with its three-level vectors, binary file byte by byte | induction over histories; nested ranges give distinct keys, order-insensitive loading |
| C230 | `AligTab/Model.lean`: IncrIbm2AligTable, any hash order | the same, over permutations |
| C231 | `AligTab/Model.lean`: sorting tools (2, 3, 4 key fields), filter information | the comparison is the lexicographic order; permutations |
| C232 | `AligTab/Pipe.lean`: sort + merge (C133) + filter (C135) + load (C136) | composition |
| C233 | `Anji/Model.lean`: `anjiMatrix.cc` with its vectors; `Anji/Hist.lean`: specification (window, values) and invariant (circular buffer, inverse mappings, entries of the right shape) | induction on the operations: `Inv.step`; the window is the rotated buffer |
| C234 | `Anji/File.lean`: records of the binary file and text of `.msinfo` | loading the records of an entry rebuilds it row by row; the mapping lines rebuild both vectors; then the invariant of C233 holds again with the same specification state |
| C235 | `CorpusTools/Wer.lean`: thot_calc_wer.py | the row of a prefix is the row of distances of reversed prefixes (induction); minimality by induction on the edit script |
| C236 | `CorpusTools/Clean.lean`: thot_clean_corpus_ln.py, exact reals | the dictionaries hold the counts, means and deviations of the groups; Chebyshev's inequality |
| C237 | `CorpusTools/Clean.lean`: thot_extract_sents_by_ln.sh | the selection by position of both files, by induction |
| C238 | `PhrTools/Merge.lean`: thot_merge_counts.sh, thot_cut_ttable.sh, merge part of thot_gen_phr_model_mr.sh; `sort` is any sorted permutation | lines with a common prefix are contiguous in a sorted file (`Runs.lean`); the loop over runs by induction |
| C239–C240 | `PhrTools/Table.lean`: thot_flip_phr.sh, thot_sort_ttable.sh with `%03d`, `%.20f` | the written line is computed for well-formed rows; order of fixed-point texts with one integer digit is the numeric order |
| C241–C243 | `PhrTools/Table.lean`: thot_get_nbest_for_trg.sh with awk's comparison of fields | invariant of the loop over the blocks of the sorted file; counterexamples for number-like phrases, the last remainder and fractions |
| C244 | `ImtSes/Model.lean`: ThotImtSession.cc on top of `Verif.Cat`; specification: run of rejections at the end of the history | snoc induction on the calls |
| C245 | same; words of the answer | C150 and the tokenisation of completed texts |
| C246 | same, engine = any that satisfies `EngineOk` | C153 gives the words of the answer, C137/C141 discharge `EngineOk` for the word-graph processor |
| C247 | WordPenaltyModel.cc in its only reachable (geometric) mode, over the reals | geometric series; telescoping sum for the segmentation; counterexample for the documented tail |
| C248 | thot_get_ngram_counts.sh: the nested loops over i, j, z, the awk array and the END rule | the text built is the joined window of the padded sentence; counting positions = counting occurrences; array as association list, any permutation |
| C249 | thot_get_ngram_counts_mr.sh and thot_merge_ngram_counts.sh: split, fragment numbers, length prefix, sort, merging loop with its count_s==0 test | prefix-contiguity of the C order, groups by history and by last word; every history that is followed by a word somewhere is followed by a word in each fragment where it occurs |
| C250 | replace_first_word_occurrence_by_unk of both scripts | induction over the corpus with the set of words seen |
| C251–C252 | `TransModel` of thot_smt_preproc.py (dictionaries as association lists in insertion order; exact probabilities; words have no white space other than the separating blank) | `Preproc/TmModel`, `TmProps`, `TmIo`: invariant of the two dictionaries over histories; exact effect of `load` on what `print` writes |
| C253–C255 | `LangModel` (n-grams as joined strings; exact probabilities) | `Preproc/LmModel`, `LmProps`, `LmIo`: the count of an n-gram as a sum over passes and positions; exact effect of `load` |
| C256–C257 | `Decoder` under Python 3: a comparison of hypotheses raises `TypeError`, so `heappush` on a non-empty heap is an exception; scores are an arbitrary function | `Preproc/DecModel`, `DecProps`: invariant of the search; the state dictionary never recombines for orders from 2 |
| C258–C259 | decategorize and the functions it calls; categ_src_trg_annotation (`categorize_word` is any function of a word) | `Preproc/Categ`, `CategProps`: the scans of the printed information are inverted; order of a category in its segment as a count; `pick` as an index in the filtered segment |
| C260–C263 | the pattern of the annotations (literals, `[ ]*`, `(.+?)`, `(\d+)`, with backtracking), `finditer` and the functions over the skeleton; lines written from their parts are the specification | `Preproc/Xml`, `XmlProps`, `XmlCons`: the shortest text of `(.+?)` is found when the closing tag does not occur before; scan over texts without opening tags |
| C264–C265 | Tokenizer.tokenize with any `findall`, tokenize | `Preproc/XmlCons`: a match is found at its position or before, so the next ones are still found; concatenation by induction |
| C266 | `Confid/Model.lean`: `getWordConfidences`, `getSentenceConfidence` over an abstract lexical model and vocabularies, exact rationals | the nested updates compute the maximum over the NULL word, the source words and the decapitalized variants (fold induction); bounds by induction on the sum |
| C267, C269–C271 | `NbTools/Model`: rescore, best translation (`sort -nr`), augment, remove component, merge, over lines; `split` with a separator of several characters; exact sums | `Basic`: splitting a text whose fields do not contain the separator; `Rescore`, `Aug`, `Merge`: lines written from their parts are read back, loops over the fields by induction, sorted list of lines and `uniq` |
| C268, C272 | `NbTools/Model`: thot_get_nblist_segm_info.py and thot_filter_nblist.sh, with the model of thot_check_constraints (C214) | `Segm`: dictionaries of the graph and the index, positions with a new bit, minimum and maximum; `Filt`: the segmentation is a phrase alignment, whose check is C214 |
| C273, C274, C278 | `TextTools/Model`: thot_filter_ttable_given_corpus, thot_filter_text_ilextable, thot_replace_oov_with_unk over lists of lines | `Filter`: the loops enumerate exactly the contiguous parts (prefixes of suffixes); fields of a line written from its parts |
| C275 | `TextTools/Model`: the awk loops of thot_merge_text_{ilextable,iibm2atable,ihmmatable}.sh, exact counts | `Merge`: simulation by the binary merge tool (C133), whose invariant is shared |
| C276, C277 | `TextTools/Model`: thot_conv_giza_alig_file.py (Moses format), thot_gen_exhaustive_giza_alig.py | `Giza`: the fields of a third line are the words with their numbers (C162's writer); induction on the words |
| C279 | `DynClass/Model`: DynClassFileHandler over the lines of the file | `Props`: fold over the lines against the last declaration; the loop over the fields |
| C280, C281, C282 | `DynClass/Model`: SimpleDynClassLoader and DynClassFactoryHandler; system as reference counts, `dlopen`/`dlsym` as a parameter of each operation | `Props`: invariant (reference count = number of classes with the library) over histories; induction on the list of classes |
| C283, C284 | `Exper/Model`: thot_shuffle.sh (random numbers as a parameter), thot_gen_partition.sh with `head` and `tail` | `Shuffle`: sorting by (random number, position) is a permutation of the positions; the sets are pieces of it; Fisher–Yates by induction |
| C285, C286 | `Exper/Model`: the bootstrap loops of thot_conf_interv_smt.sh and _cat.sh, exact arithmetic | `Conf`: order statistics of a sorted list; sums |
| C287–C290 | `Exper/Model`: thot_corpus_length.sh, thot_get_swm_vocab.sh, thot_merge_seglen_counts.sh, thot_gen_wigauss_slen_model.sh; awk arrays as finite maps | `Counts`, `Vocab`: invariants of the folds; the recurrences keep mean and squared deviations |
| C291–C293 | `Exper/Model`: thot_repetition_rate.sh over the text of the count files; `sort` as any sorted order, `uniq -u` as groups of one | `Rr`: equal keys are consecutive in any sorted order (C176's groups); real logarithm and exponential for the geometric mean |
| C294–C296, C298 | `HatTrie/Model`: htrie_hash.h (nodes, insertion, bursts, look-up, iterators, prefix ranges); tables as association lists in any order, keys as lists of character codes | `Lookup`: a burst keeps the map (invariant of the fold over the table), insertion and assignment by induction on the key; `Iter`: mutual induction over nodes and children that a walk reads the entries of a subtree and then leaves it; `Small`: a burst loses a character per level |
| C297 | `HatTrie/Model`: erase and clear_empty_nodes | `Erase`: induction on the key; two counterexamples evaluated by the kernel |
| C299–C302 | `CondTab/Model`: IncrCondProbTable.h, counts instead of their logarithms, maps as association lists | `Props`: each operation commutes with lookups; totals by induction, sums over distinct targets; entries by induction over the node (two counterexamples) |
| C303, C304 | `CondTab/Model`: the n-best lists over the multimap of `Nbest`, the logarithm as any strictly increasing function zero at one | `PropsNbest`: insertion into the multimap is a sorted permutation (two counterexamples) |
| C305–C307 | `CondTab/Model`: IncrEncoder.h, the word-level operations of _incrEncCondProbModel.h; a vocabulary file as its entries | `PropsEnc`: invariant that codes are distinct and at most the counter; word-level counts by a simulation with the table indexed by words |
| C308 | `loadOptions` on the fields of the lines | Induction on the lines: what is already in the table wins. |
| C309 | `capitalize` with an abstract language model (state and step) | Induction on the sentence; the options loop returns the first maximum. |
| C310 | the same, with a prefix | Refuted as stated (options compared with the word of the sentence); partial: exact result. |
| C311 | `Proc2.preproc`, `Proc2.postproc` over histories | The prefix is overwritten by every pre-processing. |
| C312 | several processors over a library with global tables | Refuted for an empty kept sentence; otherwise by induction on the calls. |
| C313, C314 | `NbFile/Model`: `printNbList` and the reader of `thot_ll_weight_upd_nblist`, on fields of lines | Round trip by induction on components and words; refuted without weights. |
| C315 | selection of weights and printing of the result | Induction on the selection. |
| C316 | `takeParameters`, `checkParameters` over `Opts` | Case analysis; refuted: `-va` is not optional. |
| C317 | `obtain_nblists_and_scr_comps` | Induction on the names. |
| C318 | `Handler/Model`: names and weights of the features of StdFeatureHandler.cc | Induction on the entries of the descriptor. |
| C319 | the same, with `getFeatureIdx` and the files of weights | Refuted with a repeated status; partial: lookups by name find the feature of the model. |
| C320 | `loadSwmLambdas`, `printSwmLambdas` | Case analysis. |
| C321 | PhraseExtractUtils.cc:30-147 over lists of tokenised lines; the consistent pairs are a parameter | induction over the source lines; full statement refuted (longer target accepted) |
| C322 | PhraseExtractUtils.cc:168-178, StrictCategPhrasePairFilter.cc:38-91 | loop equals filter by induction |
| C323 | WeightUpdateUtils.cc:137-158 on top of C321 and C322 | composition |
| C324 | FeaturesInfo.h:57-126, `dynamic_cast` a parameter | induction with position offset |
| C325 | LogCount.h over reals with infinities and NaN, `lns_sumlog` from MathFuncs | induction over the history with C175; full statement refuted (`set_count` of a number) |
