{
 "claims": [
  {
   "property": "C01",
   "status": "proved",
   "theorems": [
    "Thot.Bitset.C01_history",
    "Thot.Bitset.C01_bitwise"
   ],
   "note": ""
  },
  {
   "property": "C02",
   "status": "proved",
   "theorems": [
    "Thot.Bitset.C02_count",
    "Thot.Bitset.C02_default_in_bounds"
   ],
   "note": ""
  },
  {
   "property": "C03",
   "status": "proved",
   "theorems": [
    "Thot.Bitset.C03_lt_is_value_order",
    "Thot.Bitset.C03_value_spec",
    "Thot.Bitset.C03_irrefl",
    "Thot.Bitset.C03_trans",
    "Thot.Bitset.C03_total",
    "Thot.Bitset.C03_lt_not_eq",
    "Thot.Bitset.C03_gt_converse"
   ],
   "note": ""
  },
  {
   "property": "C04",
   "status": "proved",
   "theorems": [
    "Thot.Bitset.C04_incr",
    "Thot.Bitset.C04_shr",
    "Thot.Bitset.C04_shr_value"
   ],
   "note": ""
  },
  {
   "property": "C05",
   "status": "partial",
   "theorems": [
    "Thot.Bitset.C05_add_partial",
    "Thot.Bitset.C05_counterexample",
    "Thot.Bitset.C05_counterexample2"
   ],
   "note": "The full statement C05_full is false of the code (carry lost); the counterexamples prove its negation."
  },
  {
   "property": "C06",
   "status": "partial",
   "theorems": [
    "Thot.Bitset.C06_whole_words_partial",
    "Thot.Bitset.C06_no_setAll_partial",
    "Thot.Bitset.C06_counterexample"
   ],
   "note": "C06_full is false of the code: set() with no argument sets the padding bits."
  },
  {
   "property": "C07",
   "status": "proved",
   "theorems": [
    "Thot.OrdVec.C07_history",
    "Thot.OrdVec.C07_copy"
   ],
   "note": "for every strict weak key order"
  },
  {
   "property": "C08",
   "status": "proved",
   "theorems": [
    "Thot.OrdVec.C08_top_pop",
    "Thot.OrdVec.C08_top_empty"
   ],
   "note": ""
  },
  {
   "property": "C09",
   "status": "proved",
   "theorems": [
    "Thot.WordAlig.C09_symmetr1",
    "Thot.WordAlig.C12_size_mismatch"
   ],
   "note": ""
  },
  {
   "property": "C10",
   "status": "proved",
   "theorems": [
    "Thot.WordAlig.C10_symmetr2"
   ],
   "note": ""
  },
  {
   "property": "C11",
   "status": "proved",
   "theorems": [
    "Thot.WordAlig.C11_growDiagFinal"
   ],
   "note": ""
  },
  {
   "property": "C12",
   "status": "proved",
   "theorems": [
    "Thot.WordAlig.C12_and",
    "Thot.WordAlig.C12_or",
    "Thot.WordAlig.C12_xor",
    "Thot.WordAlig.C12_size_mismatch",
    "Thot.WordAlig.C12_flip",
    "Thot.WordAlig.C12_transpose",
    "Thot.WordAlig.C12_transpose_twice",
    "Thot.WordAlig.C12_eq",
    "Thot.WordAlig.C12_set",
    "Thot.WordAlig.C12_cells"
   ],
   "note": ""
  },
  {
   "property": "C13",
   "status": "partial",
   "theorems": [
    "Thot.WordAlig.C13_sub_partial",
    "Thot.WordAlig.C13_counterexample"
   ],
   "note": "C13_full is false of the code: operator-= never removes a link."
  },
  {
   "property": "C14",
   "status": "partial",
   "theorems": [
    "Thot.WordAlig.C14_put_partial",
    "Thot.WordAlig.C14_get_failure_partial",
    "Thot.WordAlig.C14_roundtrip_partial",
    "Thot.WordAlig.C14_counterexample",
    "Thot.WordAlig.C14_counterexample_double"
   ],
   "note": "C14_full is false of the code: getAligVec stores i instead of i+1."
  },
  {
   "property": "C15",
   "status": "proved",
   "theorems": [
    "Thot.StrProc.C15_tokens",
    "Thot.StrProc.C15_token_facts",
    "Thot.StrProc.C15_roundtrip",
    "Thot.StrProc.Tokens.unique"
   ],
   "note": "stringToStringVector equals the unique tokenisation of the specification Tokens."
  },
  {
   "property": "C16",
   "status": "proved",
   "theorems": [
    "Thot.StrProc.C16_isPrefix",
    "Thot.StrProc.C16_isPrefixStrVec"
   ],
   "note": "All strings and string vectors; the empty vector is a prefix of everything."
  },
  {
   "property": "C17",
   "status": "partial",
   "theorems": [
    "Thot.StrProc.C17_last_word_partial",
    "Thot.StrProc.C17_single_word",
    "Thot.StrProc.C17_counterexample"
   ],
   "note": "False of the code for one-word strings (first character lost); proved whenever a blank precedes the last word, and the exact behaviour for single words."
  },
  {
   "property": "C18",
   "status": "proved",
   "theorems": [
    "Thot.Nbest.C18_fill",
    "Thot.Nbest.C18_fill_unique",
    "Thot.Nbest.C18_best",
    "Thot.Nbest.C18_best_empty",
    "Thot.Nbest.C18_keep_best",
    "Thot.Nbest.C18_trim_to_zero",
    "Thot.Nbest.C18_prune",
    "Thot.Nbest.C18_always_sorted"
   ],
   "note": "Trimming to n>=1 and pruning that keeps something are well defined; trimming to 0 and pruning away everything decrement begin() (undefined), which the theorems state explicitly."
  },
  {
   "property": "C19",
   "status": "proved",
   "theorems": [
    "Thot.Vocab.C19_vocab",
    "Thot.Vocab.C19_encode_decode"
   ],
   "note": "One language side; the other side is the same code."
  },
  {
   "property": "C20",
   "status": "partial",
   "theorems": [
    "Thot.Vocab.C20_growth_partial",
    "Thot.Vocab.C20_counterexample",
    "Thot.Vocab.C20_load"
   ],
   "note": "False for files with index gaps (counterexample); proved for files whose indices are exactly 0..size-1."
  },
  {
   "property": "C21",
   "status": "proved",
   "theorems": [
    "Thot.Trie.C21",
    "Thot.Trie.C21_frame",
    "Thot.Trie.C21_findV"
   ],
   "note": "non-empty key sequences (operator[] and insert with an empty sequence address the root); prefixes of inserted sequences are found with default data"
  },
  {
   "property": "C22",
   "status": "partial",
   "theorems": [
    "Thot.Trie.C22_counterexample",
    "Thot.Trie.C22_shape_partial"
   ],
   "note": "false of the code: copies do not copy keys; number, order and data of the nodes are preserved"
  },
  {
   "property": "C23",
   "status": "partial",
   "theorems": [
    "Thot.Socket.C23_partial",
    "Thot.Socket.C23_truncation",
    "Thot.Socket.C23_recvStr",
    "Thot.Socket.C23_counterexample"
   ],
   "note": "False of the code for short reads (C23_counterexample refutes C23_full); proved when every recv delivers all requested bytes, for every message sequence and any endianness of either host; C23_truncation gives what a short read does."
  },
  {
   "property": "C24",
   "status": "proved",
   "theorems": [
    "Thot.UserId.C24",
    "Thot.UserId.C24_mutex",
    "Thot.UserId.C24_gen_terminates",
    "Thot.UserId.C24_no_deadlock"
   ],
   "note": "Statement-level interleaving semantics with explicit mutex, any number of threads."
  },
  {
   "property": "C25",
   "status": "proved",
   "theorems": [
    "Thot.PhrTable.C25_counts",
    "Thot.PhrTable.C25_marginals",
    "Thot.PhrTable.C25_probs"
   ],
   "note": "Counts are rationals (float rounding not modelled; exact for integer counts below 2^24). Any history of increments interleaved with queries; probabilities need each increment to be at least EPSILON."
  },
  {
   "property": "C26",
   "status": "partial",
   "theorems": [
    "Thot.PhrTable.C26_partial",
    "Thot.PhrTable.C26_readd",
    "Thot.PhrTable.C26_counterexample"
   ],
   "note": "Idempotence is false of the code for c(t) (C26_counterexample); everything else proved, C26_readd says exactly what re-adding changes."
  },
  {
   "property": "C27",
   "status": "partial",
   "theorems": [
    "Thot.PhrTable.C27_partial",
    "Thot.PhrTable.C27_size",
    "Thot.PhrTable.C27_values",
    "Thot.PhrTable.C27_defined",
    "Thot.PhrTable.C27_counterexample"
   ],
   "note": "All later query results but size() are unchanged; size() grows by at most one per query (false as stated: C27_counterexample). getEntriesForTarget on a table without sources is undefined behaviour (C27_defined)."
  },
  {
   "property": "C28",
   "status": "proved",
   "theorems": [
    "Thot.LevelDb.C28_decode",
    "Thot.LevelDb.C28_injective",
    "Thot.LevelDb.C28_bytes",
    "Thot.LevelDb.C28_order",
    "Thot.LevelDb.C28_bound",
    "Thot.LevelDb.C28_ngram"
   ],
   "note": "Generic in the number of bytes per word (3 phrases, 5 lexical tables); bound 254^nb shown necessary by C28_bound."
  },
  {
   "property": "C29",
   "status": "proved",
   "theorems": [
    "Thot.LevelDb.C29",
    "Thot.LevelDb.C29_counts",
    "Thot.LevelDb.C29_round",
    "Thot.LevelDb.C29_empty_target",
    "Thot.LevelDb.C29_separator"
   ],
   "note": "LevelDB itself trusted as a bytewise ordered map. Target phrases must be non-empty (C29_empty_target) and no phrase may contain the separator (C29_separator)."
  },
  {
   "property": "C30",
   "status": "proved",
   "theorems": [
    "Thot.EditDist.C30_distance_is_minimum",
    "Thot.EditDist.C30_zero_iff_eq",
    "Thot.EditDist.C30_default_zero_iff_eq",
    "Thot.EditDist.C30_symmetric",
    "Thot.EditDist.C30_triangle"
   ],
   "note": "Distance is the minimum over all edit scripts, for every cost setting; metric laws under the usual conditions on the costs."
  },
  {
   "property": "C31",
   "status": "proved",
   "theorems": [
    "Thot.EditDist.C31_operations",
    "Thot.EditDist.C31_counts"
   ],
   "note": "Reported operations transform x into y and their weighted counts give the distance."
  },
  {
   "property": "C32",
   "status": "partial",
   "theorems": [
    "Thot.EditDist.C32_prefix_distance_partial",
    "Thot.EditDist.C32_empty_prefix",
    "Thot.EditDist.C32_counterexample",
    "Thot.EditDist.C32_operations_partial",
    "Thot.EditDist.C32_noPrefDel"
   ],
   "note": "Holds for a non-empty prefix; for the empty prefix the code charges the deletion of the whole string (counterexample). Operations: needs a non-zero deletion cost."
  },
  {
   "property": "C33",
   "status": "proved",
   "theorems": [
    "Thot.Stack.ranking_spec",
    "Thot.Stack.C33_push",
    "Thot.Stack.C33_pushes",
    "Thot.Stack.C33_pops",
    "Thot.Stack.C33_always_sorted"
   ],
   "note": "For every bound and push sequence the content is the best m (earliest first on ties), pops are sorted, push fails exactly when full of scores at least as good (or m=0)."
  },
  {
   "property": "C34",
   "status": "partial",
   "theorems": [
    "Thot.MultiStack.C34_counterexample",
    "Thot.MultiStack.C34_unique_partial",
    "Thot.MultiStack.C34_best_partial",
    "Thot.MultiStack.C34_push_partial",
    "Thot.MultiStack.C34_discard",
    "Thot.MultiStack.C34_bounded"
   ],
   "note": "Full uniqueness (C34_full) is false of the code when the class is not a function of the state. Proved: uniqueness, best score and exact push behaviour when it is; the discard condition and bounds for arbitrary classes."
  },
  {
   "property": "C35",
   "status": "proved",
   "theorems": [
    "Thot.MultiStack.C35_best_first",
    "Thot.MultiStack.C35_breadth_first"
   ],
   "note": "All reachable states, both modes."
  },
  {
   "property": "C36",
   "status": "partial",
   "theorems": [
    "Thot.MultiStack.C36_counterexample",
    "Thot.MultiStack.C36_partial"
   ],
   "note": "C36_full is false of the code: best-first removeLast always acts on the first sub-stack; its exact behaviour (and the undefined case) is proved."
  },
  {
   "property": "C37",
   "status": "proved",
   "theorems": [
    "Thot.Bitset.C37_ulong_roundtrip",
    "Thot.Bitset.C37_ulong_small"
   ],
   "note": "Includes the proof that N<=32 is out of bounds (finding)."
  },
  {
   "property": "C38",
   "status": "partial",
   "theorems": [
    "Thot.WordAlig.C38_assign_partial",
    "Thot.WordAlig.C38_counterexample",
    "Thot.WordAlig.C38_self_assign_erases"
   ],
   "note": "C38_full is false of the code: self-assignment erases the matrix."
  },
  {
   "property": "C39",
   "status": "proved",
   "theorems": [
    "Thot.StrProc.C39_blank",
    "Thot.StrProc.C39_lastCharIsBlank",
    "Thot.StrProc.C39_removeLastBlank_id",
    "Thot.StrProc.C39_expand"
   ],
   "note": ""
  },
  {
   "property": "C40",
   "status": "proved",
   "theorems": [
    "Thot.Nbest.C40_sorted",
    "Thot.Nbest.C40_canonical"
   ],
   "note": "std::sort modelled by merge sort (any sorted permutation is the same for a total order)."
  },
  {
   "property": "C41",
   "status": "proved",
   "theorems": [
    "Thot.Awk.C41_NF",
    "Thot.Awk.C41_dollar"
   ],
   "note": ""
  },
  {
   "property": "C42",
   "status": "partial",
   "theorems": [
    "Thot.Awk.C42_lines_partial",
    "Thot.Awk.C42_unterminated",
    "Thot.Awk.C42_counterexample"
   ],
   "note": "False for a last line without newline: its last character is lost; proved for newline-terminated files and exact behaviour otherwise."
  },
  {
   "property": "C43",
   "status": "proved",
   "theorems": [
    "Thot.Vocab.C43_print_load"
   ],
   "note": "Indices below 2^31 (atoi)."
  },
  {
   "property": "C44",
   "status": "partial",
   "theorems": [
    "Thot.MultiStack.C44_counterexample",
    "Thot.MultiStack.C44_safe_partial"
   ],
   "note": "False in full: shrinking the maximum size of a non-empty multi-stack leaves dangling recombination entries. Proved for all histories in which the maximum is only shrunk when nothing is stored."
  },
  {
   "property": "C45",
   "status": "partial",
   "theorems": [
    "Thot.MultiStack.C45_counterexample",
    "Thot.MultiStack.C45_partial"
   ],
   "note": "False in best-first mode with log-probability scores (bestScore is initialised from a default hypothesis); proved for breadth-first and when all scores exceed the default one."
  },
  {
   "property": "C46",
   "status": "partial",
   "theorems": [
    "Thot.Trie.C46_counterexample",
    "Thot.Trie.C46_partial"
   ],
   "note": "false of the code: the root keeps its data over clear(), visible for one-key prefixes inserted implicitly; everything else is proved"
  },
  {
   "property": "C47",
   "status": "proved",
   "theorems": [
    "Thot.Trie.C47",
    "Thot.Trie.C47_height"
   ],
   "note": ""
  },
  {
   "property": "C48",
   "status": "proved",
   "theorems": [
    "Thot.WordPred.C48",
    "Thot.WordPred.taken_one"
   ],
   "note": "non-empty words, no clear()"
  },
  {
   "property": "C49",
   "status": "proved",
   "theorems": [
    "Thot.WordPred.C49"
   ],
   "note": "non-empty words, no clear()"
  },
  {
   "property": "C50",
   "status": "partial",
   "theorems": [
    "Thot.WordPred.C50_counterexample",
    "Thot.WordPred.C50_counterexample_empty_input",
    "Thot.WordPred.C50_counterexample_empty_word",
    "Thot.WordPred.C50_partial"
   ],
   "note": "false of the code after clear(), for the empty input and with empty words; proved otherwise"
  },
  {
   "property": "C51",
   "status": "proved",
   "theorems": [
    "Thot.EditDist.C51_word_distance_is_minimum"
   ],
   "note": "Minimum over all word-level scripts."
  },
  {
   "property": "C52",
   "status": "partial",
   "theorems": [
    "Thot.EditDist.C52_prefix_distance_partial",
    "Thot.EditDist.C52_noPrefDel_partial",
    "Thot.EditDist.C52_counterexample",
    "Thot.EditDist.C52_counterexample_cache"
   ],
   "note": "Holds for a non-empty prefix and words that do not end with ' pref'; the full statement fails for the empty prefix, and the cost cache mixes up the words 'b' and 'b pref'."
  },
  {
   "property": "C53",
   "status": "partial",
   "theorems": [
    "Thot.EditDist.C53_correct_word_partial",
    "Thot.EditDist.C53_counterexample"
   ],
   "note": "Holds for a non-zero deletion cost; with a zero deletion cost deletions are not recorded and the correction is wrong (counterexample)."
  },
  {
   "property": "C54",
   "status": "partial",
   "theorems": [
    "Thot.EditDist.C54_correct_sentence_partial",
    "Thot.EditDist.C54_correct_sentence_wg_partial",
    "Thot.EditDist.C54_counterexample",
    "Thot.EditDist.C54_empty_prefix"
   ],
   "note": "Holds for a non-zero deletion cost, non-empty words and a non-empty prefix; counterexample for a zero deletion cost; the empty prefix gives the empty sentence."
  },
  {
   "property": "C55",
   "status": "partial",
   "theorems": [
    "Thot.WordGraph.C55_prevScores_partial",
    "Thot.WordGraph.C55_prevScores_exact",
    "Thot.WordGraph.C55_counterexample"
   ],
   "note": "Exact for graphs without positive arc scores; for positive scores the full claim is false of the code (counterexample)."
  },
  {
   "property": "C56",
   "status": "partial",
   "theorems": [
    "Thot.WordGraph.C56_bestPath",
    "Thot.WordGraph.C56_bestPath_none",
    "Thot.WordGraph.C56_counterexample"
   ],
   "note": "Proved when the best path is above the SMALL_SCORE offset; when the initial state is final the code reads an uninitialised arc (counterexample)."
  },
  {
   "property": "C57",
   "status": "proved",
   "theorems": [
    "Thot.WordGraph.C57_restScores"
   ],
   "note": ""
  },
  {
   "property": "C58",
   "status": "partial",
   "theorems": [
    "Thot.WordGraph.C58_prune_partial",
    "Thot.WordGraph.C58_survivors",
    "Thot.WordGraph.C58_unlimited",
    "Thot.WordGraph.C58_counterexample"
   ],
   "note": "Exact for graphs whose initial state has score 0; otherwise the initial score is counted twice (counterexample)."
  },
  {
   "property": "C59",
   "status": "partial",
   "theorems": [
    "Thot.WordGraph.C59_useful_partial",
    "Thot.WordGraph.C59_counterexample"
   ],
   "note": "Proved when final states with incoming arcs are reachable and no arc enters the initial state; without reachability the full claim is false (counterexample)."
  },
  {
   "property": "C60",
   "status": "partial",
   "theorems": [
    "Thot.WordGraph.C60_orderArcsTopol_partial",
    "Thot.WordGraph.C60_counterexample"
   ],
   "note": "Only the arc vector is permuted: score components and state lists keep the old numbers (counterexample)."
  },
  {
   "property": "C61",
   "status": "partial",
   "theorems": [
    "Thot.WordGraph.C61_arcIdsToPred",
    "Thot.WordGraph.C61_arcIdsToSucc",
    "Thot.WordGraph.C61_addArc",
    "Thot.WordGraph.C61_addArcWithScrComps",
    "Thot.WordGraph.C61_history",
    "Thot.WordGraph.C61_history_new",
    "Thot.WordGraph.C61_counterexample"
   ],
   "note": "Histories without undefined behaviour; addArc whose predecessor does not exist is undefined (counterexample)."
  },
  {
   "property": "C62",
   "status": "partial",
   "theorems": [
    "Thot.WordGraph.C62_nbest_sound",
    "Thot.WordGraph.C62_nbest_complete_partial",
    "Thot.WordGraph.C62_nbest_limit",
    "Thot.WordGraph.C62_counterexample"
   ],
   "note": "Paths that go through a final state before ending are never found (counterexample)."
  },
  {
   "property": "C63",
   "status": "proved",
   "theorems": [
    "Thot.WordGraph.C63_setCompWeights",
    "Thot.WordGraph.C63_altWeights",
    "Thot.WordGraph.C63_altWeights_ignored",
    "Thot.WordGraph.C63_bestPathWeights"
   ],
   "note": ""
  },
  {
   "property": "C64",
   "status": "proved",
   "theorems": [
    "Thot.Decoder.C64_requests_serializable"
   ],
   "note": "Conflict-serializability against the sequential specification of Spec.lean; models and user data are abstract types, steps arbitrary functions. Sessions are assumed not to change the shared state."
  },
  {
   "property": "C65",
   "status": "proved",
   "theorems": [
    "Thot.Decoder.C65_serialization_in_real_time"
   ],
   "note": "Two-point version of C64."
  },
  {
   "property": "C66",
   "status": "partial",
   "theorems": [
    "Thot.Decoder.C66_no_data_race_partial",
    "Thot.Decoder.C66_counterexample"
   ],
   "note": "Proved for every location except the vectors themselves; for these the full statement is refuted: get_vecidx_for_user_id grows tdPerUserVarsVec and per_user_mut under user_id_to_idx_mut while another session is using elements of them without that mutex."
  },
  {
   "property": "C67",
   "status": "proved",
   "theorems": [
    "Thot.Decoder.C67_no_data_race_known_users"
   ],
   "note": ""
  },
  {
   "property": "C68",
   "status": "partial",
   "theorems": [
    "Thot.Decoder.C68_no_deadlock_partial",
    "Thot.Decoder.C68_counterexample"
   ],
   "note": "Holds for all requests but a failing initUserPars (and release_user_data, not covered). Refuted in general: initUserPars returns THOT_ERROR at ThotDecoder.cc:1066 without unlocking atomic_op_mut and non_atomic_op_mut, and all later requests block."
  },
  {
   "property": "C69",
   "status": "partial",
   "theorems": [
    "Thot.Decoder.C69_requests_finish_partial",
    "Thot.Decoder.C69_counterexample"
   ],
   "note": "As C68."
  },
  {
   "property": "C70",
   "status": "partial",
   "theorems": [
    "Thot.Decoder.C70_no_use_after_free_partial",
    "Thot.Decoder.C70_counterexample"
   ],
   "note": "Holds when release_user_data is not used (clearTrans included); refuted in general: release_user_data deletes the data but leaves the user in userIdToIdx, so a later request of the user gets the deleted data."
  },
  {
   "property": "C71",
   "status": "proved",
   "theorems": [
    "Thot.Server.C71_shutdown_waits_for_all_requests"
   ],
   "note": "The processing of a request is abstract (a number of steps)."
  },
  {
   "property": "C72",
   "status": "proved",
   "theorems": [
    "Thot.Server.C72_server_does_not_hang"
   ],
   "note": "Processing a request is assumed to finish (see C68/C69 for the decoder)."
  },
  {
   "property": "C73",
   "status": "partial",
   "theorems": [
    "Thot.Server.C73_connections_closed_once_partial",
    "Thot.Server.C73_counterexample"
   ],
   "note": "Holds if pthread_create does not fail; when it fails the server deletes the request data but does not close the socket (thot_server.cc:316-322), so the full statement is refuted."
  },
  {
   "property": "C74",
   "status": "partial",
   "theorems": [
    "Thot.PhrExtract.C74_extraction_sound_partial",
    "Thot.PhrExtract.C74_counterexample"
   ],
   "note": "Proved for a non-empty source sentence and all lengths. The full statement C74_full is false of the code: for an empty source line and a target of at least two words a pair with empty source and weight 0/0 is extracted (C74_counterexample)."
  },
  {
   "property": "C75",
   "status": "partial",
   "theorems": [
    "Thot.PhrExtract.C75_extraction_complete_partial",
    "Thot.PhrExtract.C75_counterexample"
   ],
   "note": "C75_full is false of the code (C75_counterexample: two-sided extension around one target word is missed; the whole target needs the whole source). Proved for pairs where at most one end of the source segment is extended with unaligned words, maximally."
  },
  {
   "property": "C76",
   "status": "proved",
   "theorems": [
    "Thot.PhrExtract.C76_phrases_weights"
   ],
   "note": ""
  },
  {
   "property": "C77",
   "status": "proved",
   "theorems": [
    "Thot.Meta.C77_constraints",
    "Thot.Meta.C77_total",
    "Thot.Meta.C77_segments",
    "Thot.Meta.C77_roundtrip"
   ],
   "note": "tokenisation, tag recognition, annotation parsing and constraint map modelled in full; verbose printing not modelled"
  },
  {
   "property": "C78",
   "status": "partial",
   "theorems": [
    "Thot.Meta.C78_reads_partial",
    "Thot.Meta.C78_counterexample"
   ],
   "note": "the full statement C78_full is false of the code (blank sentence); exact domain proved"
  },
  {
   "property": "C79",
   "status": "proved",
   "theorems": [
    "Thot.Meta.C79_affected",
    "Thot.Meta.C79_satisfies"
   ],
   "note": "the unsigned size computation second-first+1 modelled by second+1-first, equal for cuts that never decrease"
  },
  {
   "property": "C80",
   "status": "proved",
   "theorems": [
    "Thot.Search.C80_gaps",
    "Thot.Search.C80_sorted",
    "Thot.Search.C80_cover",
    "Thot.Search.C80_count"
   ],
   "note": ""
  },
  {
   "property": "C81",
   "status": "proved",
   "theorems": [
    "Thot.Search.C81_wf",
    "Thot.Search.C81_expand",
    "Thot.Search.C81_no_underflow",
    "Thot.Search.C81_complete",
    "Thot.Search.C81_predecessor"
   ],
   "note": ""
  },
  {
   "property": "C82",
   "status": "proved",
   "theorems": [
    "Thot.Search.C82_expand_safe",
    "Thot.Search.C82_honoured",
    "Thot.Search.C82_complete"
   ],
   "note": "plain translation mode; inputs are sentences whose constraints were read by the code"
  },
  {
   "property": "C83",
   "status": "partial",
   "theorems": [
    "Thot.Search.C83_progress_partial",
    "Thot.Search.C83_exists_partial",
    "Thot.Search.C83_counterexample"
   ],
   "note": "full statement C83_full is false of the code (constraint translated by UNKNOWN_WORD)"
  },
  {
   "property": "C84",
   "status": "proved",
   "theorems": [
    "Thot.Search.C84_safe",
    "Thot.Search.C84_ref",
    "Thot.Search.C84_ver",
    "Thot.Search.C84_counterexample"
   ],
   "note": "translateWithRef returns before any expansion when the reference is empty; C84_counterexample shows the expansion itself would read out of bounds then"
  },
  {
   "property": "C85",
   "status": "proved",
   "theorems": [
    "Thot.Search.C85_result",
    "Thot.Search.C85_next"
   ],
   "note": "exact scores; container SmtMultiStackRec"
  },
  {
   "property": "C86",
   "status": "partial",
   "theorems": [
    "Thot.Search.C86_best_first_partial",
    "Thot.Search.C86_breadth_first_partial",
    "Thot.Search.C86_found_partial",
    "Thot.Search.C86_counterexample",
    "Thot.Search.C86_counterexample_container"
   ],
   "note": "C86_full (any I, any container mode) is false of the code; proved for I = 1"
  },
  {
   "property": "C87",
   "status": "partial",
   "theorems": [
    "Thot.Search.C87_prefix",
    "Thot.Search.C87_progress_partial",
    "Thot.Search.C87_exists_partial",
    "Thot.Search.C87_counterexample"
   ],
   "note": "C87_prefix is unconditional. Progress and existence are proved when no constraints remain from an earlier call to translate; C87_counterexample shows that they fail otherwise (the constraints of the last annotated sentence are not cleared by translateWithPrefix)."
  },
  {
   "property": "C88",
   "status": "proved",
   "theorems": [
    "Thot.Search.C88_expand",
    "Thot.Search.C88_options"
   ],
   "note": "Parameters and weights are those of the current sentence: changing them between translate and getNextTrans of the same sentence is outside the histories considered."
  },
  {
   "property": "C89",
   "status": "partial",
   "theorems": [
    "Thot.Search.C89_best_first_partial",
    "Thot.Search.C89_breadth_first_partial",
    "Thot.Search.C89_counterexample",
    "Thot.Search.C89_counterexample_mode"
   ],
   "note": "Proved for translate and translateWithRef, and for the other two calls when the last sentence given to translate had no constraints; in best-first mode provided the decoder was never used in breadth-first mode. Both conditions are necessary: C89_counterexample (constraints are not cleared by translateWithPrefix), C89_counterexample_mode (the container stays in breadth-first mode). On-the-fly features and sentence weights of annotated sentences also persist in the code; they are part of the abstract model parameters here."
  },
  {
   "property": "C90",
   "status": "proved",
   "theorems": [
    "Thot.Search.C90_table",
    "Thot.Search.C90_gaps",
    "Thot.Search.C90_admissible",
    "Thot.Search.C90_optimal"
   ],
   "note": "Estimations are arbitrary exact integers (double arithmetic is not modelled). C90_optimal inherits the conditions of C86_best_first_partial (I = 1, large enough container and iteration limit, recombination contract)."
  },
  {
   "property": "C91",
   "status": "proved",
   "theorems": [
    "Thot.Search.C91_exhaustive",
    "Thot.Search.C91_sound"
   ],
   "note": "the limits on the generated segments are C81_expand; ties at the pruning boundary are left open by the statement (SurelyKept / MayBeKept)"
  },
  {
   "property": "C92",
   "status": "partial",
   "theorems": [
    "Thot.Search.C92_order_partial",
    "Thot.Search.C92_order_breadth_partial",
    "Thot.Search.C92_counterexample"
   ],
   "note": "Proved for I = 1 (one hypothesis popped per iteration) with an admissible heuristic, best-first and breadth-first. False for I > 1: C92_counterexample."
  },
  {
   "property": "C93",
   "status": "partial",
   "theorems": [
    "Thot.Search.C93_defined",
    "Thot.Search.C93_arcs",
    "Thot.Search.C93_states",
    "Thot.Search.C93_translation",
    "Thot.Search.C93_incomplete",
    "Thot.Search.C93_paths",
    "Thot.Search.C93_disabled",
    "Thot.Search.C93_full",
    "Thot.Search.C93_counterexample"
   ],
   "note": "Proved for sessions in which the word graph stays enabled (or disabled); C93_full (it may be switched on between translate and getNextTrans) is false: C93_counterexample shows addArc writing out of bounds. C93_translation needs that only the empty hypothesis has its recombination state; C93_paths needs the recombination contract WgContract (same state: same continuations, words, scores, heuristic). Scores are integers (no rounding)."
  },
  {
   "property": "C94",
   "status": "proved",
   "theorems": [
    "Thot.Search.C94_exhaustive"
   ],
   "note": "Under the recombination contract WgContract; no pruning, weight(null) <= stack size."
  },
  {
   "property": "C95",
   "status": "partial",
   "theorems": [
    "Thot.Search.C95_topo_partial",
    "Thot.Search.C95_final",
    "Thot.Search.C95_full",
    "Thot.Search.C95_counterexample"
   ],
   "note": "Proved for breadth-first search expanding one hypothesis per iteration (I=1); false for best-first search (C95_counterexample)."
  },
  {
   "property": "C96",
   "status": "proved",
   "theorems": [
    "Thot.TrieVecs.C96_map",
    "Thot.TrieVecs.C96_iterate",
    "Thot.TrieVecs.C96_order"
   ],
   "note": ""
  },
  {
   "property": "C97",
   "status": "partial",
   "theorems": [
    "Thot.LangModel.C97_vocabulary_partial",
    "Thot.LangModel.C97_counterexample"
   ],
   "note": "loadVocab leaves the last code given unchanged, so that later words get codes already in use (counterexample proved)."
  },
  {
   "property": "C98",
   "status": "proved",
   "theorems": [
    "Thot.LangModel.C98_counts",
    "Thot.LangModel.C98_trained",
    "Thot.LangModel.C98_suffix"
   ],
   "note": "Exact rational counts; the detour through logarithms is left out."
  },
  {
   "property": "C99",
   "status": "partial",
   "theorems": [
    "Thot.LangModel.C99_distribution_partial",
    "Thot.LangModel.C99_trained",
    "Thot.LangModel.C99_counterexample",
    "Thot.LangModel.C99_counterexample_sum"
   ],
   "note": "False for unseen histories (sum below 1) and for orders without weights (out of bounds read): counterexamples proved."
  },
  {
   "property": "C100",
   "status": "proved",
   "theorems": [
    "Thot.LangModel.C100_sentence"
   ],
   "note": ""
  },
  {
   "property": "C101",
   "status": "partial",
   "theorems": [
    "Thot.LangModel.C101_print_load_partial",
    "Thot.LangModel.C101_counterexample"
   ],
   "note": "False when a word unknown to the loading model is repeated in a history: it gets two codes (counterexample proved). Text of numbers not modelled."
  },
  {
   "property": "C102",
   "status": "partial",
   "theorems": [
    "Thot.LangModel.C102_perplexity_partial",
    "Thot.LangModel.C102_counterexample"
   ],
   "note": "A blank line adds the score of the previous line again (counterexample proved)."
  },
  {
   "property": "C103",
   "status": "partial",
   "theorems": [
    "Thot.Hmm.C103_viterbi_partial",
    "Thot.Hmm.C103_counterexample"
   ],
   "note": "The score is the maximum over all alignments and of the returned alignment when above the floor -99999; the full property is false when all alignments of a prefix score below the floor (counterexample)."
  },
  {
   "property": "C104",
   "status": "proved",
   "theorems": [
    "Thot.Hmm.C104_cache_transparent"
   ],
   "note": ""
  },
  {
   "property": "C105",
   "status": "proved",
   "theorems": [
    "Thot.Hmm.C105_forward_sum",
    "Thot.Hmm.C105_rejected"
   ],
   "note": "In the probability domain with exact arithmetic."
  },
  {
   "property": "C106",
   "status": "proved",
   "theorems": [
    "Thot.Hmm.C106_posterior"
   ],
   "note": "For the lexical expected values; those of alignment parameters at the first word are copies in the code (see DESIGN)."
  },
  {
   "property": "C107",
   "status": "partial",
   "theorems": [
    "Thot.Hmm.C107_sentences_sum_partial",
    "Thot.Hmm.C107_counterexample"
   ],
   "note": "Holds when every source word, the null word and every position of that source length have been trained; false otherwise (counterexample)."
  },
  {
   "property": "C108",
   "status": "proved",
   "theorems": [
    "Thot.Hmm.C108_noisy_or"
   ],
   "note": ""
  },
  {
   "property": "C109",
   "status": "partial",
   "theorems": [
    "Thot.Hmm.C109_counts_partial",
    "Thot.Hmm.C109_idempotent",
    "Thot.Hmm.C109_batch",
    "Thot.Hmm.C109_lex",
    "Thot.Hmm.C109_alig",
    "Thot.Hmm.C109_counterexample"
   ],
   "note": "Unrestricted memory (the default) and batch training; false for a bounded memory (counterexample: size 1, two pairs, two iterations count four)."
  },
  {
   "property": "C110",
   "status": "partial",
   "theorems": [
    "Thot.SentHandler.C110_random_access_partial",
    "Thot.SentHandler.C110_counterexample"
   ],
   "note": "Holds when the file with counts, if given, has a line per pair; with a shorter file accesses return wrong sentences (counterexample)."
  },
  {
   "property": "C111",
   "status": "partial",
   "theorems": [
    "Thot.SentHandler.C111_read_result_partial",
    "Thot.SentHandler.C111_counterexample"
   ],
   "note": "Extra target lines are not noticed and the empty corpus gives the range (0,2^32-1) (counterexample)."
  },
  {
   "property": "C112",
   "status": "proved",
   "theorems": [
    "Thot.SentHandler.C112_round_trip"
   ],
   "note": "Parsing of a printed count is assumed to return the count (the code prints six significant digits)."
  },
  {
   "property": "C113",
   "status": "proved",
   "theorems": [
    "Thot.Metrics.C113_clipped_counts"
   ],
   "note": ""
  },
  {
   "property": "C114",
   "status": "proved",
   "theorems": [
    "Thot.Metrics.C114_brevity",
    "Thot.Metrics.C114_bleu",
    "Thot.Metrics.C114_identity"
   ],
   "note": "Reals instead of float/double."
  },
  {
   "property": "C115",
   "status": "partial",
   "theorems": [
    "Thot.Metrics.C115_sentence_score",
    "Thot.Metrics.C115_counterexample",
    "Thot.Metrics.C115_corpus_score_partial",
    "Thot.Metrics.C115_background_score"
   ],
   "note": "False for corpora whose candidates have fewer than four words (C115_counterexample: score e^(3/4)); proved equal to calc_bleu otherwise, with the exact bound in general."
  },
  {
   "property": "C116",
   "status": "proved",
   "theorems": [
    "Thot.Metrics.C116_word_errors",
    "Thot.Metrics.C116_sentence_score",
    "Thot.Metrics.C116_corpus_score"
   ],
   "note": "References without words score 0 even for an equal candidate (stated in the theorem)."
  },
  {
   "property": "C117",
   "status": "proved",
   "theorems": [
    "Thot.Metrics.C117_chrf",
    "Thot.Metrics.C117_corpus",
    "Thot.Metrics.C117_background"
   ],
   "note": "Rationals instead of float/double."
  },
  {
   "property": "C118",
   "status": "partial",
   "theorems": [
    "Thot.Metrics.C118_matches",
    "Thot.Metrics.C118_counterexample",
    "Thot.Metrics.C118_sentence_score_partial",
    "Thot.Metrics.C118_corpus_score_partial"
   ],
   "note": "False without words in common: 0/0 (C118_counterexample). Proved when some word is in common."
  },
  {
   "property": "C119",
   "status": "proved",
   "theorems": [
    "Thot.KbMira.C119_hope_fear",
    "Thot.KbMira.C119_max_translation"
   ],
   "note": ""
  },
  {
   "property": "C120",
   "status": "proved",
   "theorems": [
    "Thot.KbMira.C120_update_optimal"
   ],
   "note": "Rationals instead of double."
  },
  {
   "property": "C121",
   "status": "partial",
   "theorems": [
    "Thot.KbMira.C121_counterexample",
    "Thot.KbMira.C121_update_partial",
    "Thot.KbMira.C121_update_corpus_partial",
    "Thot.KbMira.C121_defined",
    "Thot.KbMira.C121_undefined"
   ],
   "note": "False when no evaluated score is positive (empty vector) and for an empty n-best list (uninitialized read)."
  },
  {
   "property": "C122",
   "status": "proved",
   "theorems": [
    "Thot.KbMira.C122_each_sentence_once"
   ],
   "note": ""
  },
  {
   "property": "C123",
   "status": "proved",
   "theorems": [
    "Thot.Ibm.C123_ibm1",
    "Thot.Ibm.C123_ibm2"
   ],
   "note": ""
  },
  {
   "property": "C124",
   "status": "proved",
   "theorems": [
    "Thot.Ibm.C124_best",
    "Thot.Ibm.C124_rejected"
   ],
   "note": ""
  },
  {
   "property": "C125",
   "status": "partial",
   "theorems": [
    "Thot.Ibm.C125_counterexample",
    "Thot.Ibm.C125_shifted",
    "Thot.Ibm.C125_null_partial"
   ],
   "note": "Refuted (C125_counterexample): getAligVec numbers source positions from 0, which calcLgProbForAlig takes as the null word, so the alignment scored is shifted one position; IBM 2 also leaves out the length probability. C125_shifted says exactly what is computed."
  },
  {
   "property": "C126",
   "status": "proved",
   "theorems": [
    "Thot.Ibm.C126_chunks",
    "Thot.Ibm.C126_chunks_same",
    "Thot.Ibm.C126_heur_undo",
    "Thot.Ibm.C126_heur_bound"
   ],
   "note": "The cache of the best translation of a target word, which training does not clear, is not modelled."
  },
  {
   "property": "C127",
   "status": "proved",
   "theorems": [
    "Thot.Ibm.C127_lex",
    "Thot.Ibm.C127_lex_pos",
    "Thot.Ibm.C127_alig"
   ],
   "note": "Unbounded memory of expected values (the default)."
  },
  {
   "property": "C128",
   "status": "proved",
   "theorems": [
    "Thot.Ibm.C128_total",
    "Thot.Ibm.C128_ibm1_trained"
   ],
   "note": ""
  },
  {
   "property": "C129",
   "status": "partial",
   "theorems": [
    "Thot.Ibm.C129_counterexample",
    "Thot.Ibm.C129_weighted_partial",
    "Thot.Ibm.C129_trained_partial"
   ],
   "note": "Refuted for the reported (unweighted) likelihood when pairs have weights; proved for the weighted one when no floor is reached."
  },
  {
   "property": "C130",
   "status": "proved",
   "theorems": [
    "Thot.Ibm.C130_stats",
    "Thot.Ibm.C130_params",
    "Thot.Ibm.C130_order"
   ],
   "note": ""
  },
  {
   "property": "C131",
   "status": "partial",
   "theorems": [
    "Thot.Ibm.C131_counterexample",
    "Thot.Ibm.C131_mean_partial"
   ],
   "note": "Refuted: the n/(n-1) correction counts each pass as new pairs, so the variance shrinks. Proved: the mean is kept, and the exact variance after r passes."
  },
  {
   "property": "C132",
   "status": "proved",
   "theorems": [
    "Thot.Ibm.C132_lengths",
    "Thot.Ibm.C132_interval",
    "Thot.Ibm.params_nonneg"
   ],
   "note": "The normal distribution function is a parameter that is assumed nondecreasing with values in [0,1]; with a negative mean for an unseen length the deviation is negative and the claim does not hold."
  },
  {
   "property": "C133",
   "status": "proved",
   "theorems": [
    "Thot.LexMerge.C133_merge",
    "Thot.LexMerge.C133_exists",
    "Thot.LexMerge.C133_norm",
    "Thot.LexMerge.C133_empty"
   ],
   "note": "Counts are exact rationals; the three tools are the same program for other key types."
  },
  {
   "property": "C134",
   "status": "proved",
   "theorems": [
    "Thot.LexMerge.C134_prune"
   ],
   "note": "std::sort is any permutation with nonincreasing counts; counts are positive (log counts are finite)."
  },
  {
   "property": "C135",
   "status": "partial",
   "theorems": [
    "Thot.LexMerge.C135_counterexample",
    "Thot.LexMerge.C135_present_partial"
   ],
   "note": "Refuted: when a listed pair is missing from the table, everything after it is lost. Proved when every listed pair is in the table."
  },
  {
   "property": "C136",
   "status": "proved",
   "theorems": [
    "Thot.LexMerge.C136_history",
    "Thot.LexMerge.C136_trans",
    "Thot.LexMerge.C136_roundtrip",
    "Thot.LexMerge.C136_load_merged"
   ],
   "note": "Denominators of sources without numerators are lost by printing, as stated by the theorem."
  },
  {
   "property": "C137",
   "status": "proved",
   "theorems": [
    "Thot.WgProc.C137_corrections_complete_prefix"
   ],
   "note": "Proved for every history; deletion cost not zero, words of the graph not empty and without the mark of the cache of substitution costs, prefix with a word."
  },
  {
   "property": "C138",
   "status": "proved",
   "theorems": [
    "Thot.WgProc.C138_best_candidates"
   ],
   "note": "The scores of candidates are read from the tables of the processor, whose contents are given by C139 and C140."
  },
  {
   "property": "C139",
   "status": "partial",
   "theorems": [
    "Thot.WgProc.C139_history_independent_partial",
    "Thot.WgProc.C139_counterexample"
   ],
   "note": "The full claim is refuted: words at the same position after a word that differs are taken for processed ones. Proved when each prefix shares its first words, with the same meaning, with the one before and differs from it at all later positions."
  },
  {
   "property": "C140",
   "status": "partial",
   "theorems": [
    "Thot.WgProc.C140_scores_partial",
    "Thot.WgProc.C140_counterexample"
   ],
   "note": "The full claim is refuted: the score of the graph for a state is that of the last arc entering it. Proved: the part of the error model is the cost of an edit script of the suggested beginning, and the part of the graph is the score of a path to the same state with the same last arc plus the score of the best way to go on."
  },
  {
   "property": "C141",
   "status": "proved",
   "theorems": [
    "Thot.WgProc.C141_rejected_words"
   ],
   "note": "Proved for every history."
  },
  {
   "property": "C142",
   "status": "proved",
   "theorems": [
    "Thot.Feat.C142_score",
    "Thot.Feat.C142_components",
    "Thot.Feat.C142_grouping"
   ],
   "note": "Scores in any commutative ring; histories whose phrases are non-empty and translate at most the words of the sentence."
  },
  {
   "property": "C143",
   "status": "partial",
   "theorems": [
    "Thot.Feat.C143_recombination_partial",
    "Thot.Feat.C143_counterexample"
   ],
   "note": "Proved with at most one language model feature (any other features, including the gap-dependent source length model). With two language models the state keeps only the history of the last one: C143_counterexample refutes C143_full."
  },
  {
   "property": "C144",
   "status": "partial",
   "theorems": [
    "Thot.Feat.C144_distortion_partial",
    "Thot.Feat.C144_counterexample",
    "Thot.Feat.C144_not_admissible"
   ],
   "note": "The heuristic ignores the weights and measures jumps from the last covered position instead of the next one, so each forward jump is one too long and each backward jump one too short; C144_full is refuted, and so is admissibility."
  },
  {
   "property": "C145",
   "status": "partial",
   "theorems": [
    "Thot.Feat.C145_reference_partial",
    "Thot.Feat.C145_no_lm",
    "Thot.Feat.C145_counterexample"
   ],
   "note": "The end of sentence is added without its weight; without language models an empty vector is read. C145_full is refuted."
  },
  {
   "property": "C146",
   "status": "partial",
   "theorems": [
    "Thot.Feat.C146_prefix_partial",
    "Thot.Feat.C146_counterexample",
    "Thot.Feat.C146_not_admissible"
   ],
   "note": "The heuristic also charges the (unweighted) end of sentence after the prefix; C146_full is refuted, and so is admissibility."
  },
  {
   "property": "C147",
   "status": "proved",
   "theorems": [
    "Thot.Feat.C147_class",
    "Thot.Feat.C147_jumps",
    "Thot.Feat.C147_order"
   ],
   "note": "Coverage sets of the same size; LM state a vector of word codes."
  },
  {
   "property": "C148",
   "status": "partial",
   "theorems": [
    "Thot.Ecm.C148_weights_partial",
    "Thot.Ecm.C148_every_history",
    "Thot.Ecm.C148_counterexample"
   ],
   "note": "The weights in force are pinned down for every history; the probabilities for vocabularies of at least two symbols. Missing: vocabulary sizes below 2, accepted by setWeights although they give negative probabilities or probabilities above one (C148_counterexample)."
  },
  {
   "property": "C149",
   "status": "partial",
   "theorems": [
    "Thot.Ecm.C149_correct_partial",
    "Thot.Ecm.C149_empty_prefix",
    "Thot.Ecm.C149_counterexample",
    "Thot.Ecm.C149_empty_translation"
   ],
   "note": "Missing: prefixes that end with several blanks (C149_counterexample). An empty translation is undefined behaviour (C149_empty_translation)."
  },
  {
   "property": "C150",
   "status": "partial",
   "theorems": [
    "Thot.Cat.C150_begins_with_typed_partial",
    "Thot.Cat.C150_defined",
    "Thot.Cat.C150_counterexample"
   ],
   "note": "Missing: texts with tabs when there is no pre/post-processing (C150_counterexample)."
  },
  {
   "property": "C151",
   "status": "proved",
   "theorems": [
    "Thot.Cat.C151_history_independent",
    "Thot.Cat.C151_set_is_reset_and_add"
   ],
   "note": "The pre/post-processor must not remember prefixes after the next one is pre-processed; models do not change during the session."
  },
  {
   "property": "C152",
   "status": "partial",
   "theorems": [
    "Thot.Cat.C152_postprocessing_defined_partial",
    "Thot.Cat.C152_counterexample"
   ],
   "note": "Proved for pre-processors that give words separated by single blanks, with at most one at the end. Missing: other pre-processors, for which the translation is read out of range (C152_counterexample)."
  },
  {
   "property": "C153",
   "status": "partial",
   "theorems": [
    "Thot.Cat.C153_words_partial",
    "Thot.Cat.C153_counterexample"
   ],
   "note": "Missing: texts that end with a blank after a word that only begins a word of the translation (C153_counterexample)."
  },
  {
   "property": "C154",
   "status": "proved",
   "theorems": [
    "Thot.Cat.C154_expand_last_word",
    "Thot.Cat.C154_last_word_exists"
   ],
   "note": ""
  },
  {
   "property": "C155",
   "status": "partial",
   "theorems": [
    "Thot.Srf.C155_segmentation_weights_partial",
    "Thot.Srf.C155_counterexample"
   ],
   "note": "Numbers of segmentations are exact (the code adds their logarithms in float/double). The source sentence must not be empty and both sentences have at most 100 words: longer ones are rejected and the value returned is 0, the logarithm of one segmentation (proved counterexample). The approximate branch (random walks) is unreachable because of that limit."
  },
  {
   "property": "C156",
   "status": "proved",
   "theorems": [
    "Thot.HatTable.C156_lookups",
    "Thot.HatTable.C156_totals",
    "Thot.HatTable.C156_stl",
    "Thot.HatTable.C156_reserved_word",
    "Thot.HatTable.C156_empty_target",
    "Thot.HatTable.C156_large_index"
   ],
   "note": "Counts are rationals; the htrie container is a map with arbitrary iteration order."
  },
  {
   "property": "C157",
   "status": "partial",
   "theorems": [
    "Thot.HatTable.C157_target",
    "Thot.HatTable.C157_source_partial",
    "Thot.HatTable.C157_counterexample",
    "Thot.HatTable.C157_ranking"
   ],
   "note": "Full statement for sources refuted: counts below one are dropped."
  },
  {
   "property": "C158",
   "status": "partial",
   "theorems": [
    "Thot.HatTable.C158_partial",
    "Thot.HatTable.C158_counterexample",
    "Thot.HatTable.C158_zero_count",
    "Thot.HatTable.C158_size"
   ],
   "note": "Full statement refuted: begin() on a table without targets is undefined."
  },
  {
   "property": "C159",
   "status": "proved",
   "theorems": [
    "Thot.PhrTrain.C159_strings",
    "Thot.PhrTrain.C159_training",
    "Thot.PhrTrain.C159_order",
    "Thot.PhrTrain.C159_marginals"
   ],
   "note": "Extraction itself is C74-C76 and C155. Counts are exact rationals (floats in the code)."
  },
  {
   "property": "C160",
   "status": "proved",
   "theorems": [
    "Thot.PhrTrain.C160_categ",
    "Thot.PhrTrain.C160_strict"
   ],
   "note": ""
  },
  {
   "property": "C161",
   "status": "partial",
   "theorems": [
    "Thot.PhrTrain.C161_print_load_partial",
    "Thot.PhrTrain.C161_round_trip",
    "Thot.PhrTrain.C161_counterexample"
   ],
   "note": "The full statement is false of the code: pairs with counts below EPSILON are not printed (C161_counterexample). Proved: exact contents after loading for any update history, and the exact round trip when every pair count reaches EPSILON and the number format reads back the printed counts."
  },
  {
   "property": "C162",
   "status": "partial",
   "theorems": [
    "Thot.AligFile.C162_giza_round_trip_partial",
    "Thot.AligFile.C162_counterexample"
   ],
   "note": "Proved unless a source word is `({`; the full statement is refuted (such a word adds a row to the matrix)."
  },
  {
   "property": "C163",
   "status": "proved",
   "theorems": [
    "Thot.AligFile.C163_matrix_round_trip"
   ],
   "note": ""
  },
  {
   "property": "C164",
   "status": "proved",
   "theorems": [
    "Thot.AligFile.C164_operation"
   ],
   "note": "Non-exhaustive mode."
  },
  {
   "property": "C165",
   "status": "partial",
   "theorems": [
    "Thot.AligFile.C165_operations_file_partial",
    "Thot.AligFile.C165_counterexample"
   ],
   "note": "Proved when no unknown operation comes before the first operation; the full statement is refuted (the tool then fails or operates on the stale output file)."
  },
  {
   "property": "C166",
   "status": "proved",
   "theorems": [
    "Thot.AligFile.C166_exhaustive_compact"
   ],
   "note": "The counter of occurrences is a natural number."
  },
  {
   "property": "C167",
   "status": "partial",
   "theorems": [
    "Thot.AligFile.C167_exhaustive_plain_partial",
    "Thot.AligFile.C167_counterexample"
   ],
   "note": "Proved for -g; the full statement is refuted: with -gt the file is read again without transposing it and nothing is written."
  },
  {
   "property": "C168",
   "status": "partial",
   "theorems": [
    "Thot.WordGraph.C168_round_trip_partial",
    "Thot.WordGraph.C168_counterexample"
   ],
   "note": "Full statement (also the score of the initial state) refuted: it is not written. Word `|||` first in an arc without components is excluded by Printable."
  },
  {
   "property": "C169",
   "status": "partial",
   "theorems": [
    "Thot.WordGraph.C169_paths_partial",
    "Thot.WordGraph.C169_counterexample"
   ],
   "note": "The empty path is lost when the initial state is final and no arc enters it."
  },
  {
   "property": "C170",
   "status": "partial",
   "theorems": [
    "Thot.WordGraph.C170_nbest_components_partial",
    "Thot.WordGraph.C170_counterexample"
   ],
   "note": "Hypotheses without components add nothing to the second list, so the lists are not aligned in general."
  },
  {
   "property": "C171",
   "status": "partial",
   "theorems": [
    "Thot.WgHandler.C171_load",
    "Thot.WgHandler.C171_round_trip_partial",
    "Thot.WgHandler.C171_counterexample"
   ],
   "note": "The entry of the empty sentence is printed but not loaded."
  },
  {
   "property": "C172",
   "status": "partial",
   "theorems": [
    "Thot.MathFuncs.C172_logs_partial",
    "Thot.MathFuncs.C172_integers",
    "Thot.MathFuncs.C172_counterexample"
   ],
   "note": "logNumbPermsOfTwoElems(J,0) returns 1, not log 1 = 0 (C172_counterexample). Exact reals."
  },
  {
   "property": "C173",
   "status": "proved",
   "theorems": [
    "Thot.MathFuncs.C173_poisson",
    "Thot.MathFuncs.C173_geom"
   ],
   "note": "Exact reals, no rounding or overflow."
  },
  {
   "property": "C174",
   "status": "partial",
   "theorems": [
    "Thot.MathFuncs.C174_triang_partial",
    "Thot.MathFuncs.C174_density",
    "Thot.MathFuncs.C174_counterexample"
   ],
   "note": "triang_cdf returns 0 above b (C174_counterexample)."
  },
  {
   "property": "C175",
   "status": "partial",
   "theorems": [
    "Thot.MathFuncs.C175_sum_partial",
    "Thot.MathFuncs.C175_sub",
    "Thot.MathFuncs.C175_counterexample"
   ],
   "note": "lns_sum(0,0) is not a number (C175_counterexample). No rounding."
  },
  {
   "property": "C176",
   "status": "partial",
   "theorems": [
    "Thot.SegmLen.C176_distribution_partial",
    "Thot.SegmLen.C176_counterexample",
    "Thot.SegmLen.C176_repeated"
   ],
   "note": "pk_tlen with a length of 101 reads outside of the arrays; repeated entries are added to the margin but the count is overwritten."
  },
  {
   "property": "C177",
   "status": "partial",
   "theorems": [
    "Thot.SegmLen.C177_round_trip_partial",
    "Thot.SegmLen.C177_no_file",
    "Thot.SegmLen.C177_counterexample"
   ],
   "note": "The constant table (no file) has margin 1 and all counts 1, so it is not a distribution and is not restored."
  },
  {
   "property": "C178",
   "status": "partial",
   "theorems": [
    "Thot.SegmLen.C178_src_partial",
    "Thot.SegmLen.C178_counterexample"
   ],
   "note": "The geometric model gives mass 0.1 to the lengths from 1 on."
  },
  {
   "property": "C179",
   "status": "partial",
   "theorems": [
    "Thot.SegmLen.C179_jumps_partial",
    "Thot.SegmLen.C179_default",
    "Thot.SegmLen.C179_counterexample"
   ],
   "note": "The sum over all jumps is 2-p."
  },
  {
   "property": "C180",
   "status": "partial",
   "theorems": [
    "Thot.SegmLen.C180_uniform_partial",
    "Thot.SegmLen.C180_poisson_geom",
    "Thot.SegmLen.C180_load",
    "Thot.SegmLen.C180_counterexample"
   ],
   "note": "The gap length is one too large when the gap ends at an earlier segment."
  },
  {
   "property": "C181",
   "status": "partial",
   "theorems": [
    "Thot.NgramDb.C181_counts_partial",
    "Thot.NgramDb.C181_counterexample"
   ],
   "note": "full statement refuted: history and n-gram with the same words share one entry"
  },
  {
   "property": "C182",
   "status": "proved",
   "theorems": [
    "Thot.NgramDb.C182_entries",
    "Thot.NgramDb.C182_empty"
   ],
   "note": "for the empty history the call is undefined (C182_empty)"
  },
  {
   "property": "C183",
   "status": "partial",
   "theorems": [
    "Thot.NgramDb.C183_count",
    "Thot.NgramDb.C183_histories",
    "Thot.NgramDb.C183_prob_partial",
    "Thot.NgramDb.C183_counterexample"
   ],
   "note": "the probability of an unseen n-gram is -99999"
  },
  {
   "property": "C184",
   "status": "partial",
   "theorems": [
    "Thot.NgramDb.C184_increments_partial",
    "Thot.NgramDb.C184_unigrams_zero",
    "Thot.NgramDb.C184_counterexample",
    "Thot.NgramDb.C184_lost"
   ],
   "note": "full statement refuted; the loss above one million proved as a theorem"
  },
  {
   "property": "C185",
   "status": "proved",
   "theorems": [
    "Thot.NgramDb.C185_iterate",
    "Thot.NgramDb.C185_reload"
   ],
   "note": ""
  },
  {
   "property": "C186",
   "status": "proved",
   "theorems": [
    "Thot.NgramDb.C186_tool"
   ],
   "note": "atof is a parameter"
  },
  {
   "property": "C187",
   "status": "proved",
   "theorems": [
    "Thot.NgramDb.C187_vocabulary",
    "Thot.NgramDb.C187_bad_files"
   ],
   "note": "codes given to new words after loading collide (C97)"
  },
  {
   "property": "C188",
   "status": "proved",
   "theorems": [
    "Thot.Dhs.C188_replay",
    "Thot.Dhs.C188_drive",
    "Thot.Dhs.C188_silent"
   ],
   "note": "The minimiser as a program asking for values; exact rationals; the file of images modelled at character level."
  },
  {
   "property": "C189",
   "status": "proved",
   "theorems": [
    "Thot.Dhs.C189_evaluations"
   ],
   "note": "MAX_IT is a parameter."
  },
  {
   "property": "C190",
   "status": "proved",
   "theorems": [
    "Thot.Dhs.C190_best"
   ],
   "note": "Exact rational arithmetic."
  },
  {
   "property": "C191",
   "status": "partial",
   "theorems": [
    "Thot.Dhs.C191_noshrink_partial",
    "Thot.Dhs.C191_small_partial",
    "Thot.Dhs.C191_counterexample"
   ],
   "note": "Full statement refuted: after a shrink only the worst and second worst vertices are evaluated, the others keep the values of their old positions. Proved for iterations without shrinking and for at most two dimensions with different values."
  },
  {
   "property": "C192",
   "status": "proved",
   "theorems": [
    "Thot.Dhs.C192_layout",
    "Thot.Dhs.C192_first"
   ],
   "note": "Numbers before printing; printing is a parameter of C188."
  },
  {
   "property": "C193",
   "status": "partial",
   "theorems": [
    "Thot.Dhs.C193_step_partial",
    "Thot.Dhs.C193_counterexample"
   ],
   "note": "Proved for simplexes with different values at the vertices; refuted with ties (the second worst vertex is searched among values strictly below the largest one, so two equal worst vertices make the best one count as second worst)."
  },
  {
   "property": "C194",
   "status": "partial",
   "theorems": [
    "Thot.Online.C194_visits_partial",
    "Thot.Online.C194_current_partial",
    "Thot.Online.C194_counterexample"
   ],
   "note": "Holds when E divides R; the full statement is refuted (E=2, R=3)."
  },
  {
   "property": "C195",
   "status": "partial",
   "theorems": [
    "Thot.Online.C195_counts_partial",
    "Thot.Online.C195_counterexample"
   ],
   "note": "Holds when E divides R; the full statement is refuted (E=2, R=3)."
  },
  {
   "property": "C196",
   "status": "proved",
   "theorems": [
    "Thot.Online.C196_minibatch",
    "Thot.Online.C196_zero"
   ],
   "note": ""
  },
  {
   "property": "C197",
   "status": "proved",
   "theorems": [
    "Thot.Online.C197_retrain"
   ],
   "note": ""
  },
  {
   "property": "C198",
   "status": "partial",
   "theorems": [
    "Thot.Online.C198_clear_partial",
    "Thot.Online.C198_counterexample"
   ],
   "note": "Holds with no pending sentence; the full statement is refuted: clear leaves the stored system translations."
  },
  {
   "property": "C199",
   "status": "proved",
   "theorems": [
    "Thot.Online.C199_bounds",
    "Thot.Online.C199_decreasing",
    "Thot.Online.C199_wer",
    "Thot.Online.C199_robbins_monro"
   ],
   "note": "Real numbers; float rounding not modelled."
  },
  {
   "property": "C200",
   "status": "proved",
   "theorems": [
    "Thot.Online.C200_interp"
   ],
   "note": "Perplexity, float conversion and %g printing are arbitrary functions."
  },
  {
   "property": "C201",
   "status": "proved",
   "theorems": [
    "Thot.SwLi.C201_score",
    "Thot.SwLi.C201_comps",
    "Thot.SwLi.C201_loglinear"
   ],
   "note": "Scores in a commutative ring; models are arbitrary functions."
  },
  {
   "property": "C202",
   "status": "partial",
   "theorems": [
    "Thot.SwLi.Len.C202_range",
    "Thot.SwLi.Len.C202_max_partial",
    "Thot.SwLi.Len.C202_counterexample",
    "Thot.SwLi.Len.C202_gaps",
    "Thot.SwLi.Len.C202_none",
    "Thot.SwLi.Len.C202_gaps_min"
   ],
   "note": "Full statement refuted: with a word that has no translation of its own the upper limit can be a length no translation has (a word without options contributes 0)."
  },
  {
   "property": "C203",
   "status": "proved",
   "theorems": [
    "Thot.SwLi.Len.C203_memo",
    "Thot.SwLi.Len.C203_optimistic",
    "Thot.SwLi.Interp.C203_modes"
   ],
   "note": "Exact arithmetic."
  },
  {
   "property": "C204",
   "status": "proved",
   "theorems": [
    "Thot.SwLi.Interp.C204_interp",
    "Thot.SwLi.Interp.C204_mono",
    "Thot.SwLi.Interp.C204_cache",
    "Thot.SwLi.Interp.C204_cache_condition"
   ],
   "note": "Exact reals; float rounding not modelled."
  },
  {
   "property": "C205",
   "status": "proved",
   "theorems": [
    "Thot.SwLi.Interp.C205_set",
    "Thot.SwLi.Interp.C205_roundtrip",
    "Thot.SwLi.Interp.C205_admissible"
   ],
   "note": "Weights are rationals; the constant 1e-6 is a parameter e > 0."
  },
  {
   "property": "C206",
   "status": "proved",
   "theorems": [
    "Thot.Desc.C206_dirname",
    "Thot.Desc.C206_absolutize"
   ],
   "note": ""
  },
  {
   "property": "C207",
   "status": "partial",
   "theorems": [
    "Thot.Desc.C207_entry",
    "Thot.Desc.C207_counterexample",
    "Thot.Desc.C207_roundtrip"
   ],
   "note": "Refuted part: a single word followed by a comment gives an entry whose file name is the whole line."
  },
  {
   "property": "C208",
   "status": "partial",
   "theorems": [
    "Thot.Desc.C208_main_partial",
    "Thot.Desc.C208_counterexample",
    "Thot.Desc.C208_comment"
   ],
   "note": "Full statement refuted: entries with two or more initialisation words are not found as main, and comment lines mentioning main are taken as main entries."
  },
  {
   "property": "C209",
   "status": "partial",
   "theorems": [
    "Thot.Proto.C209_remote_calls_partial",
    "Thot.Proto.C209_counterexample"
   ],
   "note": "Proved when every recv delivers all the bytes it asks for, requests served one after another; false for split deliveries (counterexample)."
  },
  {
   "property": "C210",
   "status": "partial",
   "theorems": [
    "Thot.Proto.C210_users_initialised_partial",
    "Thot.Proto.C210_counterexample"
   ],
   "note": "Proved for arbitrary byte streams that initialisation is asked for exactly once and before any call; false that it succeeded: the user is remembered before the attempt, so after a failure the next request is processed without parameters."
  },
  {
   "property": "C211",
   "status": "partial",
   "theorems": [
    "Thot.Proto.C211_end_server",
    "Thot.Proto.C211_second_request_unanswered",
    "Thot.Proto.C211_counterexample"
   ],
   "note": "End of the server proved. The server closes the connection after one request: a second request is never performed and its answer is read from a closed connection."
  },
  {
   "property": "C212",
   "status": "partial",
   "theorems": [
    "Thot.Meta.C212_json_constraints_partial",
    "Thot.Meta.C212_sound",
    "Thot.Meta.C212_counterexample"
   ],
   "note": "Proved unless the words of an original but the last end the sentence: then isPhraseInSentence reads past the end of the sentence (off-by-one in the length test; counterexample)."
  },
  {
   "property": "C213",
   "status": "partial",
   "theorems": [
    "Thot.Meta.C213_plain_text",
    "Thot.Meta.C213_throws",
    "Thot.Meta.C213_counterexample"
   ],
   "note": "Non-JSON text proved; an exception escapes exactly when a tag is not an object (characterised); out-of-bounds reads as in C212."
  },
  {
   "property": "C214",
   "status": "partial",
   "theorems": [
    "Thot.Meta.C214_verdicts_partial",
    "Thot.Meta.C214_counterexample"
   ],
   "note": "Proved for well-formed files; malformed alignment lines are read out of bounds."
  },
  {
   "property": "C215",
   "status": "proved",
   "theorems": [
    "Thot.Dict.C215_history",
    "Thot.Dict.C215_add"
   ],
   "note": "All histories; scores of arbitrary type; std::map trusted (Common/SMap)."
  },
  {
   "property": "C216",
   "status": "partial",
   "theorems": [
    "Thot.Dict.C216_entry",
    "Thot.Dict.C216_load_partial",
    "Thot.Dict.C216_counterexample"
   ],
   "note": "Full statement (malformed lines ignored) refuted by C216_counterexample; proved for every file all of whose lines are entries."
  },
  {
   "property": "C217",
   "status": "partial",
   "theorems": [
    "Thot.Dict.C217_database_partial",
    "Thot.Dict.C217_same",
    "Thot.Dict.C217_size",
    "Thot.Dict.C217_counterexample"
   ],
   "note": "Full statement refuted for words with a tab (C217_counterexample); proved for all files whose entries have words of characters greater than space. LevelDB is a sorted map that never fails; printing and reading of scores are arbitrary functions."
  },
  {
   "property": "C218",
   "status": "partial",
   "theorems": [
    "Thot.Opts.C218_value",
    "Thot.Opts.C218_no_value",
    "Thot.Opts.C218_flag",
    "Thot.Opts.C218_two",
    "Thot.Opts.C218_isOption",
    "Thot.Opts.C218_seq",
    "Thot.Opts.C218_floats",
    "Thot.Opts.C218_num_partial",
    "Thot.Opts.C218_num_counterexample"
   ],
   "note": "All but the last part proved for every argument list; that a number reader returning 0 has read a number is refuted (C218_num_counterexample). sscanf is an arbitrary partial function."
  },
  {
   "property": "C219",
   "status": "proved",
   "theorems": [
    "Thot.Opts.C219_cfg"
   ],
   "note": "All files; awkInputStream as in C41/C42."
  },
  {
   "property": "C220",
   "status": "partial",
   "theorems": [
    "Thot.Opts.C220_dec_partial",
    "Thot.Opts.C220_alig_partial",
    "Thot.Opts.C220_wgp_ignored",
    "Thot.Opts.C220_counterexample"
   ],
   "note": "Full statement refuted (verbosity of the configuration file, C220_counterexample; -wgp, C220_wgp_ignored); precedence proved for all other parameters and the exact behaviour of these two stated."
  },
  {
   "property": "C221",
   "status": "partial",
   "theorems": [
    "Thot.Opts.C221_decoder",
    "Thot.Opts.C221_tools",
    "Thot.Opts.C221_agree_partial",
    "Thot.Opts.C221_missing",
    "Thot.Opts.C221_counterexample"
   ],
   "note": "Full statement refuted for options set twice (C221_counterexample); agreement proved for options set at most once, and what the decoder does for every file."
  },
  {
   "property": "C222",
   "status": "partial",
   "theorems": [
    "Thot.LdbLex.C222_get",
    "Thot.LdbLex.C222_translations_partial",
    "Thot.LdbLex.C222_counterexample"
   ],
   "note": "Values proved in full. Translations proved for all target words but 2^32-1, for which the upper end of the scanned range wraps around to 0 and nothing is returned (refuted by C222_counterexample)."
  },
  {
   "property": "C223",
   "status": "partial",
   "theorems": [
    "Thot.LdbLex.C223_read",
    "Thot.LdbLex.C223_file",
    "Thot.LdbLex.C223_roundtrip_partial",
    "Thot.LdbLex.C223_same_partial",
    "Thot.LdbLex.C223_lost_denominator",
    "Thot.LdbLex.C223_missing",
    "Thot.LdbLex.C223_convert",
    "Thot.LdbLex.C223_counterexample"
   ],
   "note": "Round trip proved when no LevelDB database exists at the prefix and every denominator belongs to a word with a numerator. Refuted in general: an existing database is loaded instead of the printed file; denominators of words without numerators are lost."
  },
  {
   "property": "C224",
   "status": "partial",
   "theorems": [
    "Thot.LdbStore.C224_first_partial",
    "Thot.LdbStore.C224_load_damage",
    "Thot.LdbStore.C224_clear",
    "Thot.LdbStore.C224_frame",
    "Thot.LdbStore.C224_persist",
    "Thot.LdbStore.C224_clearTrans",
    "Thot.LdbStore.C224_init",
    "Thot.LdbStore.C224_counterexample",
    "Thot.LdbStore.C224_counterexamples"
   ],
   "note": "First load, persistence and frame proved. Refuted in general: loading into an object that has a database, clear(), and clearing the translation model of the decoder empty the databases on disk."
  },
  {
   "property": "C225",
   "status": "partial",
   "theorems": [
    "Thot.LdbStore.C225_lines",
    "Thot.LdbStore.C225_counts_partial",
    "Thot.LdbStore.C225_counterexample"
   ],
   "note": "Proved for integer counts. Refuted for fractional counts, which are rounded at each addition. Counts are rationals, not floats."
  },
  {
   "property": "C226",
   "status": "partial",
   "theorems": [
    "Thot.Bdb.C226_order",
    "Thot.Bdb.C226_counts_partial",
    "Thot.Bdb.C226_entries",
    "Thot.Bdb.C226_empty_source",
    "Thot.Bdb.C226_counterexample"
   ],
   "note": "Proved for nonempty phrases without the reserved word and with at most 20 words in all; refuted for longer pairs, whose joint count is lost while the counts of their phrases are stored. C226_entries is exact for all lengths."
  },
  {
   "property": "C227",
   "status": "partial",
   "theorems": [
    "Thot.Bdb.C227_probs_partial",
    "Thot.Bdb.C227_flag",
    "Thot.Bdb.C227_counterexample",
    "Thot.Bdb.C227_counterexamples"
   ],
   "note": "Proved for positive counts and nonempty phrases; refuted for counts 0 and for the empty target phrase, where the fast path divides by zero or gives probability 0 instead of the smoothing constant."
  },
  {
   "property": "C228",
   "status": "partial",
   "theorems": [
    "Thot.Bdb.C228_tool",
    "Thot.Bdb.C228_new_partial",
    "Thot.Bdb.C228_counterexample"
   ],
   "note": "Proved when no database exists at the output prefix; refuted otherwise (counts are added to the existing ones). C228_tool is exact in both cases."
  },
  {
   "property": "C229",
   "status": "proved",
   "theorems": [
    "Thot.AligTab.C229_history",
    "Thot.AligTab.C229_roundtrip",
    "Thot.AligTab.C229_bad_file"
   ],
   "note": "Positions up to 2^32-2 (for the last one the printing loop does not end). Text format not modelled."
  },
  {
   "property": "C230",
   "status": "proved",
   "theorems": [
    "Thot.AligTab.C230_history",
    "Thot.AligTab.C230_roundtrip",
    "Thot.AligTab.C230_bad_file"
   ],
   "note": "Source positions up to 2^32-2. Text format not modelled."
  },
  {
   "property": "C231",
   "status": "proved",
   "theorems": [
    "Thot.AligTab.C231_order",
    "Thot.AligTab.C231_sort",
    "Thot.AligTab.C231_cut",
    "Thot.AligTab.C231_info"
   ],
   "note": ""
  },
  {
   "property": "C232",
   "status": "proved",
   "theorems": [
    "Thot.AligTab.C232_pipeline"
   ],
   "note": "Counts are exact rationals; at least one table is not empty (otherwise the merging tool reads the first element of an empty vector, C133)."
  },
  {
   "property": "C233",
   "status": "proved",
   "theorems": [
    "Thot.Anji.C233_window"
   ],
   "note": "Fixed sentence lengths for each sentence pair number; numbers below 2^31; values exact."
  },
  {
   "property": "C234",
   "status": "partial",
   "theorems": [
    "Thot.Anji.C234_roundtrip_partial",
    "Thot.Anji.C234_counterexample",
    "Thot.Anji.C234_stale"
   ],
   "note": "The full claim (loading in a matrix with any history, any files left) is refuted by C234_counterexample; the partial theorem is the claim for a matrix that loads without maximum size and without a stale .msinfo file."
  },
  {
   "property": "C235",
   "status": "proved",
   "theorems": [
    "Thot.CorpusTools.C235_levenshtein",
    "Thot.CorpusTools.C235_wer"
   ],
   "note": "exact numbers; splitting at blanks not modelled"
  },
  {
   "property": "C236",
   "status": "proved",
   "theorems": [
    "Thot.CorpusTools.C236_kept",
    "Thot.CorpusTools.C236_dropped"
   ],
   "note": "exact reals in place of floating point"
  },
  {
   "property": "C237",
   "status": "proved",
   "theorems": [
    "Thot.CorpusTools.C237_parallel",
    "Thot.CorpusTools.C237_reverse"
   ],
   "note": ""
  },
  {
   "property": "C238",
   "status": "proved",
   "theorems": [
    "Thot.PhrTools.C238_merge"
   ],
   "note": "Training of each chunk is not modelled; exact sums; fmt and num are arbitrary."
  },
  {
   "property": "C239",
   "status": "proved",
   "theorems": [
    "Thot.PhrTools.C239_flip"
   ],
   "note": ""
  },
  {
   "property": "C240",
   "status": "partial",
   "theorems": [
    "Thot.PhrTools.C240_sort_partial",
    "Thot.PhrTools.C240_counterexample"
   ],
   "note": "Proved for counts of at least 1/9; false below 1/10: the inverses of the counts are compared as texts (counterexample proved)."
  },
  {
   "property": "C241",
   "status": "partial",
   "theorems": [
    "Thot.PhrTools.C241_nbest_partial",
    "Thot.PhrTools.C241_counterexample"
   ],
   "note": "Proved unless two target phrases of one word are different texts of the same number: awk compares them as numbers and entries are lost (counterexample proved)."
  },
  {
   "property": "C242",
   "status": "partial",
   "theorems": [
    "Thot.PhrTools.C242_remainder_partial",
    "Thot.PhrTools.C242_counterexample"
   ],
   "note": "The remainder of the last target phrase is never written (counterexample proved); proved for all others."
  },
  {
   "property": "C243",
   "status": "partial",
   "theorems": [
    "Thot.PhrTools.C243_empty_partial",
    "Thot.PhrTools.C243_counterexample"
   ],
   "note": "False of the code: nothing is written for a fraction (proved); the threshold is not implemented."
  },
  {
   "property": "C244",
   "status": "partial",
   "theorems": [
    "Thot.ImtSes.C244_rejected_set_partial",
    "Thot.ImtSes.C244_counterexample"
   ],
   "note": "Exact for calls compared by the words of the prefix; false of the code when only last_token_is_partial changes: words rejected for the incomplete word still constrain the next word (counterexample proved)."
  },
  {
   "property": "C245",
   "status": "partial",
   "theorems": [
    "Thot.ImtSes.C245_keeps_prefix_partial",
    "Thot.ImtSes.C245_partial_word_partial",
    "Thot.ImtSes.C245_counterexample"
   ],
   "note": "Proved for setPrefix and for rejections after a complete word; false after rejecting the end of an incomplete word, because the prefix sent lacks the final blank and its last word can be extended (counterexample proved)."
  },
  {
   "property": "C246",
   "status": "proved",
   "theorems": [
    "Thot.ImtSes.C246_rejected_not_proposed",
    "Thot.ImtSes.C246_engine"
   ],
   "note": "Without pre/post-processing. C246_engine discharges the engine hypothesis for the modelled word-graph processor (from C137 and C141)."
  },
  {
   "property": "C247",
   "status": "partial",
   "theorems": [
    "Thot.WordPen.C247_word_penalty_partial",
    "Thot.WordPen.C247_segmentation_partial",
    "Thot.WordPen.C247_counterexample"
   ],
   "note": "Exact reals, geometric mode (the only reachable one). The documented meaning of sumWordPenaltyScore (log of the tail) is off by log 0.7: C247_counterexample refutes C247_full."
  },
  {
   "property": "C248",
   "status": "proved",
   "theorems": [
    "Thot.NgramScripts.C248_counts"
   ],
   "note": "Words are nonempty, without blanks, and different from <s> and </s>. Counts are naturals."
  },
  {
   "property": "C249",
   "status": "proved",
   "theorems": [
    "Thot.NgramScripts.C249_map_reduce",
    "Thot.NgramScripts.exists_output"
   ],
   "note": "Same hypotheses; the 26^4 limit of split -a 4 is not modelled."
  },
  {
   "property": "C250",
   "status": "proved",
   "theorems": [
    "Thot.NgramScripts.C250_unk",
    "Thot.NgramScripts.C250_mass"
   ],
   "note": "C250_mass assumes the corpus does not contain <unk>."
  },
  {
   "property": "C251",
   "status": "partial",
   "theorems": [
    "Thot.Preproc.C251_counts_partial",
    "Thot.Preproc.C251_counterexample"
   ],
   "note": "Full claim refuted: the first increment of a new target of a known source is stored as 1 (line 63)."
  },
  {
   "property": "C252",
   "status": "partial",
   "theorems": [
    "Thot.Preproc.C252_print_load_partial",
    "Thot.Preproc.C252_counterexample"
   ],
   "note": "Exact description of what is loaded: counts of sources and first options are kept, the other options get 1."
  },
  {
   "property": "C253",
   "status": "partial",
   "theorems": [
    "Thot.Preproc.C253_ngram_counts_partial",
    "Thot.Preproc.C253_counterexample"
   ],
   "note": "Exact counts for all n-grams; those at the end of a line are counted n-m+1 times (short slices)."
  },
  {
   "property": "C254",
   "status": "partial",
   "theorems": [
    "Thot.Preproc.C254_probabilities_partial",
    "Thot.Preproc.C254_counterexample"
   ],
   "note": "Exact probabilities of words, of the mark of end (may exceed 1) and after the mark of begin (always 0)."
  },
  {
   "property": "C255",
   "status": "partial",
   "theorems": [
    "Thot.Preproc.C255_print_load_partial",
    "Thot.Preproc.C255_counterexample"
   ],
   "note": "The empty n-gram is recomputed from the unigrams, with the marks of end."
  },
  {
   "property": "C256",
   "status": "partial",
   "theorems": [
    "Thot.Preproc.C256_recase_partial",
    "Thot.Preproc.C256_counterexample"
   ],
   "note": "Exact result: recased when every word has one casing at most, TypeError otherwise (Hypothesis has no Python 3 comparison). Scores are abstract."
  },
  {
   "property": "C257",
   "status": "partial",
   "theorems": [
    "Thot.Preproc.C257_detokenize_partial",
    "Thot.Preproc.C257_counterexample"
   ],
   "note": "Whatever is printed has the same non-blank characters and joins no tokens; an applicable source of several tokens raises TypeError."
  },
  {
   "property": "C258",
   "status": "proved",
   "theorems": [
    "Thot.Preproc.C258_decategorize"
   ],
   "note": "For segments inside the source and increasing cuts that end at the number of target words. categorize_word is an arbitrary function."
  },
  {
   "property": "C259",
   "status": "proved",
   "theorems": [
    "Thot.Preproc.C259_annotation_paired"
   ],
   "note": "categorize_word is an arbitrary function."
  },
  {
   "property": "C260",
   "status": "proved",
   "theorems": [
    "Thot.Preproc.C260_skeleton"
   ],
   "note": "The pattern is modelled with its backtracking; white space is the blank, digits are ASCII."
  },
  {
   "property": "C261",
   "status": "proved",
   "theorems": [
    "Thot.Preproc.C261_remove_annotations"
   ],
   "note": ""
  },
  {
   "property": "C262",
   "status": "proved",
   "theorems": [
    "Thot.Preproc.C262_lowercase"
   ],
   "note": "str.lower is an arbitrary function."
  },
  {
   "property": "C263",
   "status": "proved",
   "theorems": [
    "Thot.Preproc.C263_categorize"
   ],
   "note": "categorize_word is an arbitrary function."
  },
  {
   "property": "C264",
   "status": "proved",
   "theorems": [
    "Thot.Preproc.C264_tokenizer"
   ],
   "note": "findall is an arbitrary function whose matches occur in order in the text."
  },
  {
   "property": "C265",
   "status": "proved",
   "theorems": [
    "Thot.Preproc.C265_tokenize"
   ],
   "note": ""
  },
  {
   "property": "C266",
   "status": "proved",
   "theorems": [
    "Thot.Confid.C266_confidences"
   ],
   "note": "exact rationals instead of float; atoi overflow (UB) excluded by hypothesis"
  },
  {
   "property": "C267",
   "status": "partial",
   "theorems": [
    "Thot.NbTools.C267_best_partial",
    "Thot.NbTools.C267_counterexample"
   ],
   "note": "The order is that of `sort -n`, which does not read exponents: false of the code for scores printed with one (counterexample)."
  },
  {
   "property": "C268",
   "status": "partial",
   "theorems": [
    "Thot.NbTools.C268_segm_partial",
    "Thot.NbTools.C268_counterexample"
   ],
   "note": "Several arcs between two states overwrite one another: wrong cuts if they have different numbers of words (counterexample)."
  },
  {
   "property": "C269",
   "status": "proved",
   "theorems": [
    "Thot.NbTools.C269_augment"
   ],
   "note": ""
  },
  {
   "property": "C270",
   "status": "proved",
   "theorems": [
    "Thot.NbTools.C270_remove"
   ],
   "note": ""
  },
  {
   "property": "C271",
   "status": "partial",
   "theorems": [
    "Thot.NbTools.C271_merge_partial",
    "Thot.NbTools.C271_counterexample"
   ],
   "note": "Lists with different components are merged anyway (counterexample)."
  },
  {
   "property": "C272",
   "status": "partial",
   "theorems": [
    "Thot.NbTools.C272_filter_partial",
    "Thot.NbTools.C272_counterexample"
   ],
   "note": "The checking tool stops at the first entry without translation, and the entries after it are dropped (counterexample)."
  },
  {
   "property": "C273",
   "status": "proved",
   "theorems": [
    "Thot.TextTools.C273_filter"
   ],
   "note": ""
  },
  {
   "property": "C274",
   "status": "proved",
   "theorems": [
    "Thot.TextTools.C274_filter"
   ],
   "note": "Corpora of the same length, as the script requires; with a shorter target corpus the stale source line is used as target (modelled)."
  },
  {
   "property": "C275",
   "status": "partial",
   "theorems": [
    "Thot.TextTools.C275_merge_partial",
    "Thot.TextTools.C275_counterexample"
   ],
   "note": "For empty tables a line without values is printed (counterexample); proved when a table is not empty. Exact counts instead of logarithms."
  },
  {
   "property": "C276",
   "status": "proved",
   "theorems": [
    "Thot.TextTools.C276_moses"
   ],
   "note": ""
  },
  {
   "property": "C277",
   "status": "proved",
   "theorems": [
    "Thot.TextTools.C277_exhaustive"
   ],
   "note": ""
  },
  {
   "property": "C278",
   "status": "proved",
   "theorems": [
    "Thot.TextTools.C278_oov"
   ],
   "note": ""
  },
  {
   "property": "C279",
   "status": "proved",
   "theorems": [
    "Thot.DynClass.C279_ini"
   ],
   "note": "A line without the final ';' loses its last parameter: the last word of a line is never a parameter (visible in the specification)."
  },
  {
   "property": "C280",
   "status": "proved",
   "theorems": [
    "Thot.DynClass.C280_modules"
   ],
   "note": "dlclose of an open library is taken to succeed."
  },
  {
   "property": "C281",
   "status": "partial",
   "theorems": [
    "Thot.DynClass.C281_init_partial",
    "Thot.DynClass.C281_counterexample"
   ],
   "note": "The parameters of BaseScorer are never stored (counterexample); proved for the other eleven classes."
  },
  {
   "property": "C282",
   "status": "partial",
   "theorems": [
    "Thot.DynClass.C282_failed_partial",
    "Thot.DynClass.C282_counterexample"
   ],
   "note": "The libraries of the classes before the one that fails stay open (counterexample); proved that exactly those do."
  },
  {
   "property": "C283",
   "status": "partial",
   "theorems": [
    "Thot.Exper.C283_shuffle_partial",
    "Thot.Exper.C283_counterexample",
    "Thot.Exper.C283_normal",
    "Thot.Exper.C283_alt"
   ],
   "note": "With a word in each line: a line with no word is printed as its number."
  },
  {
   "property": "C284",
   "status": "partial",
   "theorems": [
    "Thot.Exper.C284_partition_partial",
    "Thot.Exper.C284_error",
    "Thot.Exper.C284_counterexample"
   ],
   "note": "For 2*dt <= e: the script checks another variable, accepts larger values and the sets overlap."
  },
  {
   "property": "C285",
   "status": "partial",
   "theorems": [
    "Thot.Exper.C285_runs_partial",
    "Thot.Exper.C285_counterexample",
    "Thot.Exper.C285_interval",
    "Thot.Exper.C285_stats"
   ],
   "note": "The loop runs N-1 experiments instead of N; the rest is proved for them."
  },
  {
   "property": "C286",
   "status": "proved",
   "theorems": [
    "Thot.Exper.C286_sample",
    "Thot.Exper.C286_cat"
   ],
   "note": ""
  },
  {
   "property": "C287",
   "status": "proved",
   "theorems": [
    "Thot.Exper.C287_lengths"
   ],
   "note": ""
  },
  {
   "property": "C288",
   "status": "partial",
   "theorems": [
    "Thot.Exper.C288_vocab_partial",
    "Thot.Exper.C288_counterexample"
   ],
   "note": "For different special symbols: a repeated one leaves an unused index."
  },
  {
   "property": "C289",
   "status": "proved",
   "theorems": [
    "Thot.Exper.C289_merge",
    "Thot.Exper.C289_order"
   ],
   "note": ""
  },
  {
   "property": "C290",
   "status": "partial",
   "theorems": [
    "Thot.Exper.C290_slen_partial",
    "Thot.Exper.C290_counterexample"
   ],
   "note": "If the source file has at least as many lines as the target one; otherwise the target length is taken as the source length."
  },
  {
   "property": "C291",
   "status": "proved",
   "theorems": [
    "Thot.Exper.C291_statistics"
   ],
   "note": ""
  },
  {
   "property": "C292",
   "status": "proved",
   "theorems": [
    "Thot.Exper.C292_unseen"
   ],
   "note": ""
  },
  {
   "property": "C293",
   "status": "partial",
   "theorems": [
    "Thot.Exper.C293_geometric",
    "Thot.Exper.C293_printed_partial",
    "Thot.Exper.C293_counterexample",
    "Thot.Exper.C293_fraction"
   ],
   "note": "The fourth fraction printed is the third one."
  },
  {
   "property": "C294",
   "status": "proved",
   "theorems": [
    "Thot.HatTrie.C294_map",
    "Thot.HatTrie.C294_threshold"
   ],
   "note": "Lookups, answers and (with C295) sizes against an ideal map; keys longer than the maximum key size (an exception) are not modelled."
  },
  {
   "property": "C295",
   "status": "proved",
   "theorems": [
    "Thot.HatTrie.C295_iteration"
   ],
   "note": "The order inside a table is left open."
  },
  {
   "property": "C296",
   "status": "proved",
   "theorems": [
    "Thot.HatTrie.C296_prefix"
   ],
   "note": "For histories without removals (Thot makes none)."
  },
  {
   "property": "C297",
   "status": "partial",
   "theorems": [
    "Thot.HatTrie.C297_erase_partial",
    "Thot.HatTrie.C297_counterexample",
    "Thot.HatTrie.C297_prefix_counterexample"
   ],
   "note": "Proved: lookups, answers and size for histories whose removals never hit the value of a trie node without children. Refuted in general: removing the value of a trie node whose children were removed before leaves a node without value and children, and begin() then follows a null pointer; removing the only key leaves an empty table as the root, and equal_prefix_range then reads the end iterator of that table."
  },
  {
   "property": "C298",
   "status": "proved",
   "theorems": [
    "Thot.HatTrie.C298_tables"
   ],
   "note": "Also shows that the bound on nested bursts in the model is never reached."
  },
  {
   "property": "C299",
   "status": "proved",
   "theorems": [
    "Thot.CondTab.C299_contents"
   ],
   "note": ""
  },
  {
   "property": "C300",
   "status": "proved",
   "theorems": [
    "Thot.CondTab.C300_increments"
   ],
   "note": "Counts as exact natural numbers instead of float logarithms."
  },
  {
   "property": "C301",
   "status": "partial",
   "theorems": [
    "Thot.CondTab.C301_sourced_partial",
    "Thot.CondTab.C301_counterexample"
   ],
   "note": "The full statement is false: addSrcTrgInfo for a source without a count, then infSrcTrg dereferences end()."
  },
  {
   "property": "C302",
   "status": "partial",
   "theorems": [
    "Thot.CondTab.C302_entries_partial",
    "Thot.CondTab.C302_counterexample"
   ],
   "note": "The full statement is false: getEntriesForTarget does not clear the node passed when the target is found. Proved for an empty node."
  },
  {
   "property": "C303",
   "status": "partial",
   "theorems": [
    "Thot.CondTab.C303_order_partial",
    "Thot.CondTab.C303_counterexample"
   ],
   "note": "The full statement is false: the score is a logarithm minus a count. The order and the set are proved."
  },
  {
   "property": "C304",
   "status": "partial",
   "theorems": [
    "Thot.CondTab.C304_difference_partial",
    "Thot.CondTab.C304_counterexample"
   ],
   "note": "The full statement is false: sources are ordered by the difference of counts, not by probability; N=0 is undefined."
  },
  {
   "property": "C305",
   "status": "partial",
   "theorems": [
    "Thot.CondTab.C305_coding_partial",
    "Thot.CondTab.C305_counterexample"
   ],
   "note": "The full statement is false: load does not advance the counter. Proved without loads."
  },
  {
   "property": "C306",
   "status": "partial",
   "theorems": [
    "Thot.CondTab.C306_source_partial",
    "Thot.CondTab.C306_counterexample"
   ],
   "note": "The full statement is false: load and print return after the source side, the target vocabulary is never written nor read."
  },
  {
   "property": "C307",
   "status": "proved",
   "theorems": [
    "Thot.CondTab.C307_words"
   ],
   "note": ""
  },
  {
   "property": "C308",
   "status": "proved",
   "theorems": [
    "Thot.Capit.C308_options_of_a_word"
   ],
   "note": ""
  },
  {
   "property": "C309",
   "status": "proved",
   "theorems": [
    "Thot.Capit.C309_no_prefix"
   ],
   "note": ""
  },
  {
   "property": "C310",
   "status": "partial",
   "theorems": [
    "Thot.Capit.C310_prefix_partial",
    "Thot.Capit.C310_counterexample"
   ],
   "note": "The options are compared with the word of the sentence, not with the word of the prefix (full statement refuted); the partial theorem characterises the result."
  },
  {
   "property": "C311",
   "status": "proved",
   "theorems": [
    "Thot.Capit.C311_session"
   ],
   "note": ""
  },
  {
   "property": "C312",
   "status": "partial",
   "theorems": [
    "Thot.Capit.C312_restores_tables_partial",
    "Thot.Capit.C312_tables_kept",
    "Thot.Capit.C312_counterexample"
   ],
   "note": "False when the sentence kept last is empty (refuted); proved when it is not."
  },
  {
   "property": "C313",
   "status": "partial",
   "theorems": [
    "Thot.NbFile.C313_nbest_file_partial",
    "Thot.NbFile.C313_counterexample"
   ],
   "note": "Refuted when the word graph has no weights: no header is written, and the reader always skips the first line."
  },
  {
   "property": "C314",
   "status": "proved",
   "theorems": [
    "Thot.NbFile.C314_lost_without_weights",
    "Thot.NbFile.C314_arcs_for_components"
   ],
   "note": ""
  },
  {
   "property": "C315",
   "status": "proved",
   "theorems": [
    "Thot.NbFile.C315_selected_weights"
   ],
   "note": ""
  },
  {
   "property": "C316",
   "status": "partial",
   "theorems": [
    "Thot.NbFile.C316_parameters_partial",
    "Thot.NbFile.C316_counterexample"
   ],
   "note": "-va is not optional when weights are given (refuted); the partial theorem characterises acceptance."
  },
  {
   "property": "C317",
   "status": "proved",
   "theorems": [
    "Thot.NbFile.C317_lists_of_files"
   ],
   "note": ""
  },
  {
   "property": "C318",
   "status": "proved",
   "theorems": [
    "Thot.Handler.C318_feature_names"
   ],
   "note": ""
  },
  {
   "property": "C319",
   "status": "partial",
   "theorems": [
    "Thot.Handler.C319_saved_weights_partial",
    "Thot.Handler.C319_counterexample"
   ],
   "note": "Refuted when two models of the descriptor have the same status: features are looked up by name."
  },
  {
   "property": "C320",
   "status": "proved",
   "theorems": [
    "Thot.Handler.C320_weights_file",
    "Thot.Handler.C320_saved_with_prefix"
   ],
   "note": ""
  },
  {
   "property": "C321",
   "status": "partial",
   "theorems": [
    "Thot.DevPairs.C321_files_partial",
    "Thot.DevPairs.C321_counterexample"
   ],
   "note": "Proved except that a target file with more lines than the source is accepted (counterexample to the full statement)."
  },
  {
   "property": "C322",
   "status": "proved",
   "theorems": [
    "Thot.DevPairs.C322_filter"
   ],
   "note": "All lists."
  },
  {
   "property": "C323",
   "status": "proved",
   "theorems": [
    "Thot.DevPairs.C323_tuning"
   ],
   "note": "The extraction of consistent pairs is a parameter."
  },
  {
   "property": "C324",
   "status": "proved",
   "theorems": [
    "Thot.DevPairs.C324_features"
   ],
   "note": "dynamic_cast is a parameter."
  },
  {
   "property": "C325",
   "status": "partial",
   "theorems": [
    "Thot.DevPairs.C325_logcount_partial",
    "Thot.DevPairs.C325_logarithms",
    "Thot.DevPairs.C325_counterexample"
   ],
   "note": "Exact reals. set_count of a float, double or int stores it as the logarithm (counterexample to the full statement); proved for set_count(Count)."
  }
 ]
}