{"id": "C01", "title": "Bitset single-bit reads and writes", "statement": "For a Bitset<N>, after any history of set(n), set(n,0), reset(n), set(), reset() on in-range positions, test(n) returns exactly the value last written to position n (false for a fresh object); a write to one position never changes the reading of another, including across 32-bit word boundaries.", "quantifier": "every N, every operation history, every pair of in-range positions", "why_tests_cant": "word-boundary arithmetic must be right for every position and every history; tests sample a few positions", "anchors": ["src/nlp_common/Bitset.h: Bitset::set, reset, test, NUM_WORDS"]}
{"id": "C02", "title": "Bitset count", "statement": "count(J) returns the number of positions j<J for which test(j) is true, for every J not larger than the number of stored bits.", "quantifier": "every bitset contents and every J up to the storage size", "why_tests_cant": "exponentially many contents", "anchors": ["src/nlp_common/Bitset.h: Bitset::count"]}
{"id": "C03", "title": "Bitset comparison is a strict total order", "statement": "operator< on Bitset<N> is irreflexive, transitive and total with respect to operator==, it orders bitsets as unsigned integers, and operator> is its converse; so Bitset keys in std::map are well behaved.", "quantifier": "all pairs/triples of bitsets of any size", "why_tests_cant": "a strict-weak-order violation only shows on particular triples", "anchors": ["src/nlp_common/Bitset.h: operator<, operator>, operator=="]}
{"id": "C04", "title": "Bitset increment and right shift", "statement": "operator++ adds one to the bitset read as an unsigned integer (modulo the storage size) and b>>=k makes test(i) equal to the former test(i+k) (false beyond the storage).", "quantifier": "all bitset contents, all shift amounts", "why_tests_cant": "carry chains and shift amounts crossing words are too many to enumerate", "anchors": ["src/nlp_common/Bitset.h: operator++, operator>>="]}
{"id": "C05", "title": "Bitset addition", "statement": "operator+ adds two bitsets as unsigned integers modulo the storage size.", "quantifier": "all pairs of bitsets", "why_tests_cant": "needs all carry patterns; the code is in fact wrong on some carries", "anchors": ["src/nlp_common/Bitset.h: operator+"]}
{"id": "C06", "title": "Bitset equality agrees with reading all N positions", "statement": "Two Bitset<N> objects compare equal exactly when test(n) agrees for all n<N.", "quantifier": "all histories of operations on two bitsets", "why_tests_cant": "depends on bits stored beyond N which no read of an in-range position shows", "anchors": ["src/nlp_common/Bitset.h: operator==, set(void)"]}
{"id": "C07", "title": "OrderedVector behaves as a finite map", "statement": "After any sequence of insert/push/operator[]/pop/clear, findPtr(k) gives the data last stored for k (none if absent), iteration is in strictly increasing key order without duplicates, and size() is the number of distinct keys; binary search never misses a key.", "quantifier": "all key types with a strict weak order, all operation histories", "why_tests_cant": "binary search correctness depends on every length and probe position", "anchors": ["src/nlp_common/OrderedVector.h: push, insert, findPtr, operator[], pop, findIndex, size"]}
{"id": "C08", "title": "OrderedVector top and pop take the greatest key", "statement": "top() returns the entry with the greatest key and pop() removes exactly that entry.", "quantifier": "all non-empty reachable contents", "why_tests_cant": "follows only from the global sortedness invariant", "anchors": ["src/nlp_common/OrderedVector.h: top, pop"]}
{"id": "C09", "title": "symmetr1 lies between intersection and union and terminates", "statement": "For equally sized alignment matrices A and B, A.symmetr1(B) halts; the result contains every link in both, only links in A or B, and is a fixed point: no further union link is addable by the rule. Differently sized operands leave A unchanged.", "quantifier": "all matrix dimensions and contents", "why_tests_cant": "the loop runs until no change; termination and containment must hold for every pair", "anchors": ["src/nlp_common/WordAligMatrix.cc: symmetr1, ijInNeighbourhood, iAligned, jAligned"]}
{"id": "C10", "title": "symmetr2 lies between intersection and union and terminates", "statement": "Same as symmetr1 for the refined heuristic which never adds a link having both a horizontal and a vertical neighbour at the moment of addition.", "quantifier": "all matrix dimensions and contents", "why_tests_cant": "as above", "anchors": ["src/nlp_common/WordAligMatrix.cc: symmetr2"]}
{"id": "C11", "title": "growDiagFinal sound and covering", "statement": "A.growDiagFinal(B) halts, contains the intersection, is contained in the union, and afterwards every link of A or B has both its row word and its column word aligned.", "quantifier": "all matrix dimensions and contents", "why_tests_cant": "as above", "anchors": ["src/nlp_common/WordAligMatrix.cc: growDiagFinal, obtainAdjacentCells"]}
{"id": "C12", "title": "Alignment matrix algebra", "statement": "&=, |=, ^= compute link-wise and/or/xor for equal sizes and are no-ops otherwise, flip complements, transposing twice is the identity, operator== is link-wise equality, and set(i,j) out of range does nothing.", "quantifier": "all matrices", "why_tests_cant": "all sizes and contents", "anchors": ["src/nlp_common/WordAligMatrix.cc: operator&=, operator|=, operator^=, flip, transpose, operator==, set"]}
{"id": "C13", "title": "Alignment matrix difference", "statement": "A -= B removes from A the links that are in B.", "quantifier": "all matrices of equal sizes", "why_tests_cant": "all contents; false of the code", "anchors": ["src/nlp_common/WordAligMatrix.cc: operator-="]}
{"id": "C14", "title": "Alignment vector round trip", "statement": "Putting an alignment vector into an empty matrix of fitting size and reading it back with getAligVec returns the same vector; getAligVec reports failure exactly when some column has two links.", "quantifier": "all alignment vectors", "why_tests_cant": "off-by-one visible only for some positions", "anchors": ["src/nlp_common/WordAligMatrix.cc: putAligVec, getAligVec"]}
{"id": "C15", "title": "Tokenise/join round trip", "statement": "stringToStringVector(stringVectorToString(v)) = v for every vector of non-empty blank-free words, and the tokens returned for any string are non-empty, contain no blanks or tabs, and concatenate to the string without its blanks.", "quantifier": "all strings and all word vectors", "why_tests_cant": "unbounded strings", "anchors": ["src/nlp_common/StrProcUtils.cc: stringToStringVector, stringVectorToString, charItemsToVector"]}
{"id": "C16", "title": "Prefix tests", "statement": "isPrefix(a,b) holds exactly when b = a followed by some string; isPrefixStrVec(u,v) holds exactly when all words of u but the last equal those of v and the last word of u is a prefix of the corresponding word of v.", "quantifier": "all strings / string vectors", "why_tests_cant": "unbounded inputs", "anchors": ["src/nlp_common/StrProcUtils.cc: isPrefix, isPrefixStrVec"]}
{"id": "C17", "title": "Last word of a sentence", "statement": "getLastWord(s) returns the last blank-separated word of s.", "quantifier": "all strings", "why_tests_cant": "fails only for words starting at index 0", "anchors": ["src/nlp_common/StrProcUtils.cc: getLastWord"]}
{"id": "C18", "title": "N-best table node", "statement": "A table filled by any sequence of insert calls iterates in non-increasing score order, equal scores in insertion order; getBestElem returns a highest-score element; repeatedly removing the last element down to n keeps n highest-scored elements; pruneGivenThreshold keeps exactly the elements with score >= threshold.", "quantifier": "all insertion sequences, all thresholds, all n", "why_tests_cant": "unbounded histories", "anchors": ["src/nlp_common/NbestTableNode.h: insert, getBestElem, removeLastElement, pruneGivenThreshold"]}
{"id": "C19", "title": "Vocabulary encode/decode", "statement": "For a vocabulary grown by any sequence of addSrcSymbol calls, every added word maps to an index that maps back to the same word, distinct words have distinct indices, indices are stable under later additions, and the reserved words keep 0,1,2; unknown words give UNK.", "quantifier": "all sequences of words", "why_tests_cant": "unbounded histories", "anchors": ["src/nlp_common/SingleWordVocab.cc: addSrcSymbol, stringToSrcWordIndex, wordIndexToSrcString"]}
{"id": "C20", "title": "Vocabulary growth after loading a file", "statement": "After loading a vocabulary file and adding new words, distinct words still have distinct indices.", "quantifier": "all vocabulary files and all later additions", "why_tests_cant": "only files with gaps in the numbering trigger the collision", "anchors": ["src/nlp_common/SingleWordVocab.cc: loadGIZASrcVocab, addSrcSymbol"]}
{"id": "C21", "title": "Trie behaves as a map on key sequences", "statement": "After any sequence of insert calls on a Trie, find(k) returns the data last inserted for k; inserting under one key sequence never changes the data found under another; sequences that are neither inserted nor prefixes of inserted ones are not found.", "quantifier": "all key sequences and insertion histories", "why_tests_cant": "unbounded histories and depths", "anchors": ["src/nlp_common/Trie.h: insert, find, operator[]"]}
{"id": "C22", "title": "Trie copies are faithful", "statement": "A copy of a Trie (copy constructor or assignment) answers find as the original.", "quantifier": "all tries", "why_tests_cant": "a missed field is only visible after the copy", "anchors": ["src/nlp_common/Trie.h: Trie(const Trie&), operator="]}
{"id": "C23", "title": "Socket message framing", "statement": "For any sequence of writeInt/writeStr by one side, the matching sequence of recvInt/recvStlStr on the other side returns the same values, however TCP splits the byte stream into segments.", "quantifier": "all message sequences and all segmentations of the stream", "why_tests_cant": "segmentation is up to the network; tests on loopback rarely see short reads", "anchors": ["src/nlp_common/BasicSocketUtils.cc: writeInt, writeStr, recvInt, recvStr, recvStlStr"]}
{"id": "C24", "title": "User identifiers are unique and stable", "statement": "Under any interleaving of idForUserName and genNewUserNameIdPair calls by concurrent clients: the same name always gets the same id, different names get different ids, and a generated name was not in use before.", "quantifier": "all interleavings of atomic calls from any number of threads", "why_tests_cant": "schedules cannot be enumerated by tests", "anchors": ["src/stack_dec/UserNameToUserIdMap.cc: idForUserName, genNewUserNameIdPair"]}
{"id": "C25", "title": "Phrase table marginals", "statement": "For a phrase table filled by incrCountsOfEntry calls only, c(s) is the sum over t of c(s,t) and c(t) is the sum over s of c(s,t), each equal to the sum of increments given; the conditional probabilities returned for a source phrase sum to one over its recorded targets.", "quantifier": "all increment histories with positive counts", "why_tests_cant": "unbounded histories", "anchors": ["src/phrase_models/StlPhraseTable.cc: incrCountsOfEntry, cSrc, cTrg, cSrcTrg, pTrgGivenSrc, pSrcGivenTrg"]}
{"id": "C26", "title": "Phrase table entry replacement", "statement": "addTableEntry(s,t,(c_s,c_st)) makes c(s)=c_s and c(s,t)=c_st, adds c_st to c(t) and changes no other count; re-adding the same pair is idempotent.", "quantifier": "all tables and entries", "why_tests_cant": "all histories; the idempotence part is false for c(t)", "anchors": ["src/phrase_models/StlPhraseTable.cc: addTableEntry"]}
{"id": "C27", "title": "Phrase table queries are read-only", "statement": "Query functions (counts, probabilities, getEntriesForTarget) never change the result of any later query, nor size().", "quantifier": "all tables, all query sequences", "why_tests_cant": "side effects inside a query helper", "anchors": ["src/phrase_models/StlPhraseTable.cc: getSrcTrgKey, getSrcTrgInfo, size"]}
{"id": "C28", "title": "Phrase keys on disk are injective and ordered", "statement": "The LevelDB key encoding of word-index sequences decodes back to the sequence for all indices below 254^3, is injective, never contains a zero byte, and byte-wise key order is the lexicographic order of the index sequences.", "quantifier": "all index sequences", "why_tests_cant": "254^3n sequences", "anchors": ["src/phrase_models/LevelDbPhraseTable.cc: vectorToString, stringToVector", "src/phrase_models/HatTriePhraseTable.cc"]}
{"id": "C29", "title": "LevelDB phrase table lookups by target are exact", "statement": "getEntriesForTarget(t) returns exactly the source phrases s with a stored non-zero (s,t) entry, never those of another target phrase, provided phrases do not contain the reserved separator.", "quantifier": "all database contents, all targets", "why_tests_cant": "prefix/range scan correctness over all neighbouring keys", "anchors": ["src/phrase_models/LevelDbPhraseTable.cc: getEntriesForTarget, encodeTrgSrc, encodeSrc"]}
{"id": "C30", "title": "Edit distance is optimal", "statement": "calculateEditDist(x,y) equals the minimum total cost over all edit scripts turning x into y under the configured costs, for all sequences; for the default costs it is zero iff x=y.", "quantifier": "all pairs of sequences and all non-negative cost settings", "why_tests_cant": "unbounded strings; optimality is a for-all over scripts", "anchors": ["src/error_correction/_editDist.h: calculateEditDistDm", "src/error_correction/EditDistForVec.h: processMatrixCell"]}
{"id": "C31", "title": "Edit operation counts are consistent with the distance", "statement": "calculateEditDistOps returns counts h,i,s,d with hitCost*h+insCost*i+substCost*s+delCost*d equal to the returned distance, h+s+d=|x| and h+s+i=|y|, and the trace-back always terminates.", "quantifier": "all pairs of sequences, all costs", "why_tests_cant": "trace-back must be consistent on every path", "anchors": ["src/error_correction/_editDist.h: obtainOperations, countOperations, obtainOpsAndOpCostsPerType"]}
{"id": "C32", "title": "Prefix edit distance is optimal", "statement": "calculateEditDistPrefix(x,y) equals the minimum over prefixes x' of x of the edit distance between x' and y (trailing characters of x are free).", "quantifier": "all strings and costs", "why_tests_cant": "for-all over prefixes and scripts; boundary case y empty", "anchors": ["src/error_correction/EditDistForStr.cc: processMatrixCellPref"]}
{"id": "C33", "title": "Decoder stack is bounded and keeps the best hypotheses", "statement": "For any sequence of pushes to a decoding stack with maximum size m, size() never exceeds m, the retained multiset consists of m best scores pushed (earliest first on ties), top() is a best one, pop returns scores in non-increasing order, and push returns false exactly when the hypothesis is rejected for size.", "quantifier": "all push/pop histories and all m", "why_tests_cant": "unbounded histories", "anchors": ["src/stack_dec/SmtStack.h: pushIter, pop, removeLast", "src/stack_dec/_smtStack.h: top, last"]}
{"id": "C34", "title": "Hypothesis recombination", "statement": "In a recombining multi-stack at most one retained hypothesis has a given state, it has the best score among those pushed with that state since the state was last retained, and a hypothesis is discarded only if the dictionary holds a strictly better score for its state or its stack is full of hypotheses at least as good.", "quantifier": "all push/pop histories", "why_tests_cant": "unbounded histories, interplay of three containers", "anchors": ["src/stack_dec/SmtMultiStackRec.h: pushOnSmtStack, pushOnSmtStackIdx, pop", "src/stack_dec/HypStateDict.h: createDictEntry"]}
{"id": "C35", "title": "Multi-stack pop order", "statement": "In best-first mode pop() returns a hypothesis of maximal score among all stacks; in breadth-first mode it returns the best hypothesis of the first non-empty stack in key order.", "quantifier": "all multi-stack states", "why_tests_cant": "all states", "anchors": ["src/stack_dec/SmtMultiStackRec.h: pop"]}
{"id": "C36", "title": "Multi-stack removal of the worst hypothesis", "statement": "In best-first mode removeLast() removes a hypothesis of minimal score among all stacks.", "quantifier": "all multi-stack states", "why_tests_cant": "wrong only with two or more stacks", "anchors": ["src/stack_dec/SmtMultiStackRec.h: removeLast"]}
{"id": "C37", "title": "Bitset conversion from and to unsigned long", "statement": "For N greater than the word size, to_ulong() of a Bitset<N> constructed from an unsigned long returns the same integer; for N of at most one word both conversions access memory outside the object.", "quantifier": "all N and all 64-bit integers", "why_tests_cant": "needs all 2^64 inputs and all template parameters; the small-N case is silent undefined behaviour", "anchors": ["src/nlp_common/Bitset.h: Bitset(unsigned long), to_ulong"]}
{"id": "C38", "title": "Alignment matrix assignment", "statement": "After a=b the matrices compare equal, also when a and b are the same object.", "quantifier": "all matrices, aliased or not", "why_tests_cant": "aliasing and every size", "anchors": ["src/nlp_common/WordAligMatrix.cc: operator=, init"]}
{"id": "C39", "title": "Trailing blanks and library directory expansion", "statement": "removeLastBlank undoes addBlank and leaves strings without a trailing blank unchanged; lastCharIsBlank holds exactly for strings ending in a blank; expandLibDirIfFound replaces the library-directory variable exactly when it is a prefix of the module name.", "quantifier": "all strings", "why_tests_cant": "needs all strings, including empty ones and ones shorter than the variable", "anchors": ["src/nlp_common/StrProcUtils.cc: addBlank, removeLastBlank, lastCharIsBlank, expandLibDirIfFound"]}
{"id": "C40", "title": "N-best tables can be put in an order independent of insertion", "statement": "After stableSort() an N-best table lists the same elements by non-increasing score with ties in increasing data order, so the order no longer depends on the order of insertion.", "quantifier": "all insertion sequences and all total orders of the data", "why_tests_cant": "order independence ranges over all permutations of all tables", "anchors": ["src/nlp_common/NbestTableNode.h: stableSort"]}
{"id": "C41", "title": "Field splitting of input lines", "statement": "For every line, NF is the number of maximal runs of non-separator characters and dollar(n) returns the n-th of them, the empty string for n>NF and the line for n=0.", "quantifier": "all lines, all separators, all n", "why_tests_cant": "needs all lines including empty fields and leading/trailing separators", "anchors": ["src/nlp_common/AwkInputStream.cc: get_NF, retrieveField, dollar"]}
{"id": "C42", "title": "Reading a file line by line", "statement": "Reading a file with getln() until it fails gives exactly the lines of the file, also when the last line has no newline.", "quantifier": "all file contents without NUL", "why_tests_cant": "needs all file contents including unterminated last lines", "anchors": ["src/nlp_common/AwkInputStream.cc: getln"]}
{"id": "C43", "title": "Vocabulary print/load round trip", "statement": "Printing a vocabulary and loading it gives a vocabulary that answers every query identically, for all vocabularies of words without blanks or newlines, whatever the printing order.", "quantifier": "all vocabularies and entry orders", "why_tests_cant": "ranges over all vocabularies and hash orders", "anchors": ["src/nlp_common/SingleWordVocab.cc: printSrcVocab, loadGIZASrcVocab", "src/nlp_common/AwkInputStream.cc"]}
{"id": "C44", "title": "Multi-stack memory safety", "statement": "For any history of operations on the recombining multi-stack, push never goes through an invalid iterator, pop is undefined exactly when nothing is stored, and empty()/size() report the number of non-empty sub-stacks.", "quantifier": "all operation histories", "why_tests_cant": "a stale recombination entry only shows after a particular sequence of recombination, pruning and pops", "anchors": ["src/stack_dec/SmtMultiStackRec.h: SmtMultiStackRec::pushIter, pushOnSmtStackIdx, eraseRecInfo", "src/stack_dec/_smtMultiStack.h: setMaxStackSize"]}
{"id": "C45", "title": "Multi-stack top agrees with pop", "statement": "top() returns the hypothesis that pop() would return next.", "quantifier": "all multi-stack states, both modes", "why_tests_cant": "depends on the relative order of scores over arbitrarily many sub-stacks and on the score of a default hypothesis", "anchors": ["src/stack_dec/_smtMultiStack.h: _smtMultiStack::top", "src/stack_dec/SmtMultiStackRec.h: SmtMultiStackRec::pop"]}
{"id": "C46", "title": "Trie clear resets the trie", "statement": "After clear(), a Trie answers every query as a newly built one, whatever was inserted before and is inserted afterwards.", "quantifier": "all insertion histories before and after clear and all key sequences", "why_tests_cant": "stale data shows only for particular later insertions", "anchors": ["src/nlp_common/Trie.h: clear, insert, find"]}
{"id": "C47", "title": "Trie iteration visits each stored sequence once", "statement": "Iterating from begin() to end() visits every key sequence for which find succeeds exactly once with its data, size() is their number and height() is the length of the longest one.", "quantifier": "all insertion histories", "why_tests_cant": "unbounded shapes of tries", "anchors": ["src/nlp_common/Trie.h: begin, const_iterator, size, height"]}
{"id": "C48", "title": "Suffix lists give the observed completions", "statement": "For a non-empty input, WordPredictor::getSuffixList lists strictly decreasing counts; each entry completes the input to a word added exactly that many times; and every added word with that prefix has its count in the list.", "quantifier": "all sentence histories, batch sizes and inputs", "why_tests_cant": "unbounded histories; the trie iterator visits sibling branches that must be ignored", "anchors": ["src/incr_models/WordPredictor.cc: addSentence, addSentenceAux, getSuffixList"]}
{"id": "C49", "title": "The best suffix is a most frequent completion", "statement": "For a non-empty input, WordPredictor::getBestSuffix returns a completion to a most frequent added word with that prefix, and (0, empty) exactly when no added word has it.", "quantifier": "all sentence histories, batch sizes and inputs", "why_tests_cant": "unbounded histories", "anchors": ["src/incr_models/WordPredictor.cc: getBestSuffix"]}
{"id": "C50", "title": "Only added words are proposed", "statement": "Whatever the history of additions and clear() calls, a suffix proposed with positive count completes the input to a word added since the last clear().", "quantifier": "all histories and inputs", "why_tests_cant": "needs particular combinations of clear and insertions", "anchors": ["src/incr_models/WordPredictor.cc: getBestSuffix, clear", "src/nlp_common/Trie.h: clear"]}
{"id": "C51", "title": "Word-level edit distance is optimal", "statement": "The word-level edit distance between two sentences is the least total cost of a script that inserts, deletes and replaces words, where inserting or deleting a word costs as much as its characters and replacing a word costs the character-level distance.", "quantifier": "every pair of word sequences and every cost setting", "why_tests_cant": "a test compares a handful of pairs; minimality ranges over all scripts", "anchors": ["src/error_correction/EditDistForVecString.cc:calculateEditDist,processMatrixCell", "src/error_correction/EditDistForVecString.h:insertionCost,deletionCost,substitutionCost"]}
{"id": "C52", "title": "Distance of a sentence to a user prefix is optimal", "statement": "The distance of a sentence to the prefix typed by the user is the least cost of turning some beginning of the sentence into that prefix, the last word of the prefix being compared as an incomplete word unless it ends with a blank; without free deletions it is the least cost of turning the whole sentence into the prefix.", "quantifier": "every sentence, every prefix and every non-negative cost setting", "why_tests_cant": "optimality ranges over all beginnings and all scripts, and the memoisation of costs must never mix up two pairs of words", "anchors": ["src/error_correction/EditDistForVecString.cc:calculateEditDistPrefixOpsAux,processMatrixCellPref,cachedSubstCost,cachedPrefSubstCost"]}
{"id": "C53", "title": "Correcting a word keeps what the user typed", "statement": "Correcting a word with the operations of its distance to the beginning typed by the user returns that beginning followed by an end of the word.", "quantifier": "every word, beginning and non-negative cost setting", "why_tests_cant": "a test sees a few words; the claim is that no word and no optimal script loses a typed character", "anchors": ["src/error_correction/_editDistBasedEcm.cc:correctWordGivenPrefOps", "src/error_correction/EditDistForStr.cc:calculateEditDistPrefixOps"]}
{"id": "C54", "title": "Correcting a sentence completes the user prefix", "statement": "Correcting a hypothesis with the prefix typed by the user returns all words of the prefix but the last unchanged, then a word that starts with the last word of the prefix, then exactly the words of the hypothesis that remain after the beginning matched by the distance.", "quantifier": "every hypothesis, prefix and non-negative cost setting", "why_tests_cant": "interactive translation relies on the typed prefix being kept for every hypothesis in the search space", "anchors": ["src/error_correction/PfsmEcm.cc:correctStrGivenPref", "src/error_correction/PfsmEcmForWg.cc:correctStrGivenPrefWg", "src/error_correction/_editDistBasedEcm.cc:correctStrGivenPrefOps"]}
{"id": "C55", "title": "Forward scores of a word graph", "statement": "For a topologically ordered word graph, calcPrevScores(s, excluded) gives every state the best score of the paths from s that avoid pruned and excluded arcs (cut at the smallest score), and the score of s itself for s.", "quantifier": "every consistent, topologically ordered word graph, every start state and every set of excluded arcs", "why_tests_cant": "The statement compares a dynamic-programming result with all paths of arbitrary graphs.", "anchors": ["src/error_correction/WordGraph.cc: calcPrevScores"]}
{"id": "C56", "title": "Best path of a word graph", "statement": "bestPathFromFinalStateToIdx(s, excluded) returns an allowed path from s to a final state with its score, and no allowed path from s to a final state has a greater score; when there is no such path it returns the smallest score and no arcs.", "quantifier": "every consistent, topologically ordered word graph, every start state and every set of excluded arcs", "why_tests_cant": "Optimality ranges over all the paths of all graphs.", "anchors": ["src/error_correction/WordGraph.cc: bestPathFromFinalStateToIdx, bestPathFromFinalStateToIdxAux"]}
{"id": "C57", "title": "Rest scores of a word graph", "statement": "calcRestScores gives each state the best score of the unpruned paths that lead from it to a final state.", "quantifier": "every consistent, topologically ordered word graph without positive scores", "why_tests_cant": "Optimality ranges over all the paths of all graphs.", "anchors": ["src/error_correction/WordGraph.cc: calcRestScores"]}
{"id": "C58", "title": "Pruning keeps what is within the threshold", "statement": "prune(threshold) marks exactly the arcs for which every complete path through them scores below the best score by more than the threshold, returns their number and changes nothing else; paths within the threshold survive, in particular the best ones; an unlimited density removes all marks.", "quantifier": "every consistent, topologically ordered word graph and every threshold", "why_tests_cant": "The criterion compares each arc with all the complete paths through it.", "anchors": ["src/error_correction/WordGraph.cc: prune, pruneArcsToPredStates"]}
{"id": "C59", "title": "Restriction to useful states preserves the complete paths", "statement": "obtainWgComposedOfUsefulStates yields a consistent, topologically ordered graph where every arc is on a complete path, and whose complete paths have the same scores, words and score components as those of the original graph.", "quantifier": "every consistent, topologically ordered word graph", "why_tests_cant": "Equality of path languages for graphs of any size.", "anchors": ["src/error_correction/WordGraph.cc: obtainWgComposedOfUsefulStates, obtainUsefulStates, obtainStatesReachableFromInit"]}
{"id": "C60", "title": "Topological ordering of the arcs", "statement": "orderArcsTopol ends on every graph; it permutes the arcs; if the graph has no cycles the result is topologically ordered, otherwise the graph is left unchanged or ordered.", "quantifier": "every consistent word graph without pruned arcs, cyclic or not", "why_tests_cant": "Termination and order for graphs of any size.", "anchors": ["src/error_correction/WordGraph.cc: orderArcsTopol"]}
{"id": "C61", "title": "Word graph bookkeeping is consistent after any history", "statement": "After any history of addArc, addArcWithScrComps, addFinalState, setCompWeights, prune, clear and obtainWgComposedOfUsefulStates, getArcIdsToPredStates and getArcIdsToSuccStates give exactly the unpruned arcs that enter or leave the state, in order of insertion.", "quantifier": "every sequence of calls", "why_tests_cant": "The index lists must agree with the arcs after every history.", "anchors": ["src/error_correction/WordGraph.cc: addArc, addArcWithScrComps, getArcIdsToPredStates, getArcIdsToSuccStates"]}
{"id": "C62", "title": "N-best search in a word graph", "statement": "obtainNbestList ends, and returns at most len paths from the initial state to a final state, in decreasing order of score, without repetition and with their exact scores; with an unlimited stack no missing path is better than a returned one, and none is missing if fewer than len are returned.", "quantifier": "every consistent, topologically ordered word graph without positive scores, every len", "why_tests_cant": "A* search over all paths of arbitrary graphs.", "anchors": ["src/error_correction/WordGraph.cc: obtainNbestList, obtainNbSearchHeurInfo, expandHyp; src/error_correction/NbSearchStack.cc"]}
{"id": "C63", "title": "Component weights rescore arcs", "statement": "setCompWeights makes the score of each arc the weighted sum of its components; best paths asked for with alternative weights are those of the rescored graph, and weights that do not fit the components are ignored.", "quantifier": "every consistent word graph, every weight vector, start state and set of excluded arcs", "why_tests_cant": "Equality of two computations over all graphs.", "anchors": ["src/error_correction/WordGraph.cc: setCompWeights, calcPrevScoresWeights, bestPathFromFinalStateToIdx with weights"]}
{"id": "C64", "title": "Concurrent requests behave as if executed one at a time", "statement": "For any set of requests issued in parallel to a ThotDecoder (translation, verification/coverage, CAT start, prefix changes, online training, training of the error correcting model, user initialization, printing of models, clearing), there is an order of the requests such that every result returned by a finished request is the one obtained by executing the requests one after another in that order, and when all have finished the models and the data of every user are those of that sequential execution.", "quantifier": "all lists of requests of any users with arbitrary bodies, all initial states, all schedules and spurious wakeups, all points of the execution", "why_tests_cant": "It ranges over every interleaving of any number of client threads, including spurious wakeups; a test exercises a few schedules.", "anchors": ["src/stack_dec/ThotDecoder.cc: get_vecidx_for_user_id, wait_on_non_atomic_op_cond, increase_non_atomic_ops_running, unlock_non_atomic_op_mut, translateSentence, onlineTrainSentPair, trainEcm, startCat, addStrToPref, setPref, resetPrefix, clearTrans, printModels", "src/stack_dec/ThotDecoder.h: atomic_op_mut, non_atomic_op_mut, per_user_mut, user_id_to_idx_mut, preproc_mut"]}
{"id": "C65", "title": "The serialization order respects real time", "statement": "The order of C64 can be chosen so that a request that finished before another one started comes before it.", "quantifier": "all executions split at any point", "why_tests_cant": "It ranges over every interleaving of any number of client threads, including spurious wakeups; a test exercises a few schedules.", "anchors": ["src/stack_dec/ThotDecoder.cc: get_vecidx_for_user_id, wait_on_non_atomic_op_cond, increase_non_atomic_ops_running, unlock_non_atomic_op_mut, translateSentence, onlineTrainSentPair, trainEcm, startCat, addStrToPref, setPref, resetPrefix, clearTrans, printModels", "src/stack_dec/ThotDecoder.h: atomic_op_mut, non_atomic_op_mut, per_user_mut, user_id_to_idx_mut, preproc_mut"]}
{"id": "C66", "title": "No data races inside the decoder", "statement": "No two threads access the models, the data of the same user, the table of users, the counter of running operations or the vectors that hold the data of the users at the same time with one of them writing.", "quantifier": "all reachable states of all executions", "why_tests_cant": "It ranges over every interleaving of any number of client threads, including spurious wakeups; a test exercises a few schedules.", "anchors": ["src/stack_dec/ThotDecoder.cc: get_vecidx_for_user_id, wait_on_non_atomic_op_cond, increase_non_atomic_ops_running, unlock_non_atomic_op_mut, translateSentence, onlineTrainSentPair, trainEcm, startCat, addStrToPref, setPref, resetPrefix, clearTrans, printModels", "src/stack_dec/ThotDecoder.h: atomic_op_mut, non_atomic_op_mut, per_user_mut, user_id_to_idx_mut, preproc_mut"]}
{"id": "C67", "title": "No data races once users are initialized", "statement": "If every user that translates was registered beforehand (as thot_server does with initUserPars) and the decoder is not cleared, no execution has a data race, including on the vectors with the data of the users.", "quantifier": "all executions with users known initially and no clearTrans", "why_tests_cant": "It ranges over every interleaving of any number of client threads, including spurious wakeups; a test exercises a few schedules.", "anchors": ["src/stack_dec/ThotDecoder.cc: get_vecidx_for_user_id, wait_on_non_atomic_op_cond, increase_non_atomic_ops_running, unlock_non_atomic_op_mut, translateSentence, onlineTrainSentPair, trainEcm, startCat, addStrToPref, setPref, resetPrefix, clearTrans, printModels", "src/stack_dec/ThotDecoder.h: atomic_op_mut, non_atomic_op_mut, per_user_mut, user_id_to_idx_mut, preproc_mut"]}
{"id": "C68", "title": "No deadlock between requests", "statement": "Whatever requests are running, as long as one of them has not finished some thread can make progress.", "quantifier": "all reachable states of all executions", "why_tests_cant": "It ranges over every interleaving of any number of client threads, including spurious wakeups; a test exercises a few schedules.", "anchors": ["src/stack_dec/ThotDecoder.cc: get_vecidx_for_user_id, wait_on_non_atomic_op_cond, increase_non_atomic_ops_running, unlock_non_atomic_op_mut, translateSentence, onlineTrainSentPair, trainEcm, startCat, addStrToPref, setPref, resetPrefix, clearTrans, printModels", "src/stack_dec/ThotDecoder.h: atomic_op_mut, non_atomic_op_mut, per_user_mut, user_id_to_idx_mut, preproc_mut"]}
{"id": "C69", "title": "Every request finishes", "statement": "Every execution takes a number of steps bounded by the sizes of the requests and the number of spurious wakeups, and it can only stop when all requests have finished (no lost wakeup).", "quantifier": "all executions under all schedulers", "why_tests_cant": "It ranges over every interleaving of any number of client threads, including spurious wakeups; a test exercises a few schedules.", "anchors": ["src/stack_dec/ThotDecoder.cc: get_vecidx_for_user_id, wait_on_non_atomic_op_cond, increase_non_atomic_ops_running, unlock_non_atomic_op_mut, translateSentence, onlineTrainSentPair, trainEcm, startCat, addStrToPref, setPref, resetPrefix, clearTrans, printModels", "src/stack_dec/ThotDecoder.h: atomic_op_mut, non_atomic_op_mut, per_user_mut, user_id_to_idx_mut, preproc_mut"]}
{"id": "C70", "title": "Released user data are not used", "statement": "After release_user_data no request uses the data of the user that were deleted.", "quantifier": "all executions", "why_tests_cant": "It ranges over every interleaving of any number of client threads, including spurious wakeups; a test exercises a few schedules.", "anchors": ["src/stack_dec/ThotDecoder.cc: get_vecidx_for_user_id, wait_on_non_atomic_op_cond, increase_non_atomic_ops_running, unlock_non_atomic_op_mut, translateSentence, onlineTrainSentPair, trainEcm, startCat, addStrToPref, setPref, resetPrefix, clearTrans, printModels", "src/stack_dec/ThotDecoder.h: atomic_op_mut, non_atomic_op_mut, per_user_mut, user_id_to_idx_mut, preproc_mut", "src/stack_dec/ThotImtEngine.cc: end_session"]}
{"id": "C71", "title": "Shutdown waits for all requests", "statement": "When thot_server stops waiting and exits after an END_SERVER request, every thread it created has processed its request, closed its connection and released the mutex of the counter; none is cut off.", "quantifier": "all sequences of connections and failures, all schedules", "why_tests_cant": "It ranges over every interleaving of the main thread and the request threads, over all sequences of connections and failures, and over spurious wakeups.", "anchors": ["src/stack_dec/thot_server.cc: start_server (accept loop), process_request, increase_num_threads_var, decrease_num_threads_var, wait_on_num_threads_var_cond"]}
{"id": "C72", "title": "The server does not hang", "statement": "thot_server never deadlocks: unless it waits for a new connection or has returned, with all requests finished, some thread can make progress, and the number of steps is bounded by the connections.", "quantifier": "all sequences of connections, all schedules", "why_tests_cant": "It ranges over every interleaving of the main thread and the request threads, over all sequences of connections and failures, and over spurious wakeups.", "anchors": ["src/stack_dec/thot_server.cc: start_server (accept loop), process_request, increase_num_threads_var, decrease_num_threads_var, wait_on_num_threads_var_cond"]}
{"id": "C73", "title": "Connections are closed exactly once", "statement": "Every accepted connection is closed exactly once, and not while its request is being processed; when the server is idle no connection is left open.", "quantifier": "all sequences of connections and failures, all schedules", "why_tests_cant": "It ranges over every interleaving of the main thread and the request threads, over all sequences of connections and failures, and over spurious wakeups.", "anchors": ["src/stack_dec/thot_server.cc: start_server (accept loop), process_request, increase_num_threads_var, decrease_num_threads_var, wait_on_num_threads_var_cond"]}
{"id": "C74", "title": "Extracted phrase pairs are consistent with the alignment", "statement": "From a sentence pair with a word alignment matrix, every phrase pair returned by the extraction is the pair of words of a source segment and a target segment such that no link of the matrix goes from inside to outside of the pair of segments, at least one link is inside, both segments respect the length limits (source limited only if asked; unaligned target words counted only if asked), and in monotone mode links outside keep the order. No pair of segments is returned twice and no memory outside of the sentences is read.", "quantifier": "every pair of sentences (any length), alignment matrix of their size, and extraction parameters", "why_tests_cant": "The extraction builds coverages bottom-up in a triangular table with left and right extensions and deduplication; consistency is a statement about all matrices.", "anchors": ["src/phrase_models/PhraseExtractionTable.cc: extractConsistentPhrases, obtainConsistentPhrases, validCoverageForCell, createVectorWithConsPhrases"]}
{"id": "C75", "title": "Every consistent phrase pair is extracted", "statement": "For sentences of at most 100 words, every pair of segments consistent with the alignment and within the limits yields a phrase pair in the result.", "quantifier": "every pair of sentences, alignment matrix, parameters and pair of segments", "why_tests_cant": "Completeness quantifies over all alignments and all segment pairs.", "anchors": ["src/phrase_models/PhraseExtractionTable.cc: obtainConsistentPhrases, validCoverageForCell"]}
{"id": "C76", "title": "Shape and weight of the extracted phrase pairs", "statement": "For a non-empty source sentence, both sides of every extracted pair are non-empty contiguous pieces of the sentences (the source side never contains the null word), their lengths respect the limits, and the weight (sum of link values over number of links inside) has a positive denominator and is at least one, exactly one for a 0/1 matrix.", "quantifier": "every pair of sentences with non-empty source, alignment matrix and parameters", "why_tests_cant": "A division by zero or an empty phrase could arise for some unusual alignment only.", "anchors": ["src/phrase_models/PhraseExtractionTable.cc: createVectorWithConsPhrases"]}
{"id": "C77", "title": "Constraints written inside a sentence are read exactly as annotated", "statement": "For every sentence that is not blank, the source sentence kept for translation and the translation constraints are those of the left-to-right reading of its tokens (tags are tokens even without blanks around them; a well-formed annotation is one constraint, any other token is an ordinary word). Constraint segments are non-empty, inside the sentence, increasing and pairwise disjoint, with non-empty translations, and a sentence written with plain words and annotations is read back as written.", "quantifier": "all sentences (strings), all lists of words and annotations", "why_tests_cant": "the space of strings with partially written, nested or adjacent tags is unbounded; tests sample a few annotated sentences", "anchors": ["src/stack_dec/TranslationMetadata.h: obtainTransConstraints, tokenizeSrcSentence, xmlTag, constraintFound, getTransForSrcPhr, getConstrainedSrcPhrases"]}
{"id": "C78", "title": "Reading the constraints of a sentence never reads outside its tokens", "statement": "Whatever the sentence given to the translator, extracting its constraints accesses only existing tokens. (False of the code: a sentence made only of blanks makes it read element 0 of an empty vector; it holds exactly for the empty sentence and for sentences with a non-blank character.)", "quantifier": "all sentences (strings)", "why_tests_cant": "an out-of-bounds read is undefined behaviour, a test may pass by luck, and only a quantified statement delimits the failing inputs", "anchors": ["src/stack_dec/TranslationMetadata.h: obtainTransConstraints", "src/stack_dec/_stackDecoder.h: pre_trans_actions"]}
{"id": "C79", "title": "Constraint checks agree with their meaning", "statement": "A source phrase is reported as affected by a constraint iff it shares a word with a constrained phrase; a (partial or complete) translation is accepted iff every constrained phrase whose first word is translated was translated as one segment, exactly that phrase, by exactly the given words; and the check reads only existing words.", "quantifier": "all sentences with constraints, all phrase alignments with disjoint source segments and ordered cuts, all target sentences", "why_tests_cant": "quantifies over all phrase alignments and constraint sets", "anchors": ["src/stack_dec/TranslationMetadata.h: srcPhrAffectedByConstraint, translationSatisfiesConstraints, transViolatesSrcPhrConstraint"]}
{"id": "C80", "title": "The gaps of a hypothesis are the maximal runs of untranslated words", "statement": "Whatever the set of translated source positions, the gaps considered when a hypothesis is extended are exactly the maximal runs of untranslated positions, from left to right, each once; every untranslated position is in one of them and their number is the one reported.", "quantifier": "all sentence lengths, all sets of covered positions", "why_tests_cant": "the sets of covered positions are unbounded and a missed gap only shows as a translation never found", "anchors": ["src/stack_dec/_pbTransModel.h: extract_gaps, get_num_gaps"]}
{"id": "C81", "title": "Every hypothesis is a well-formed partial phrase alignment", "statement": "In every translation mode, every hypothesis built by any sequence of expansions has disjoint non-empty source segments inside the sentence, one target cut per segment in increasing order ending at the last target word; each expansion adds one segment of untranslated words that respects the limits A and U (only constrained phrases may be longer), adds its score to the predecessor's, and is undone by obtaining the predecessor; the number of uncovered words never underflows, and a hypothesis is complete iff every source word is in exactly one segment.", "quantifier": "all models, inputs, modes and sequences of expansions", "why_tests_cant": "quantifies over all models, sentences and derivations", "anchors": ["src/stack_dec/_pbTransModel.h: expand, expand_ref, expand_ver, expand_prefix", "src/stack_dec/PbTransModel.h: extendHypDataIdx, obtainPredecessorHypData, isCompleteHypData, numberOfUncoveredSrcWordsHypData"]}
{"id": "C82", "title": "Translations honour the constraints given in the sentence", "statement": "For every model and every sentence with annotated constraints, expansion never reads out of bounds, every hypothesis built translates each touched constrained phrase as one segment by exactly the given words, and the text of a complete translation contains the words given for every constraint.", "quantifier": "all models, all sentences with constraints, all sequences of expansions", "why_tests_cant": "quantifies over all models, constraint sets and derivations", "anchors": ["src/stack_dec/_pbTransModel.h: expand, getTransForHypUncovGap, getTransInPlainTextVecTs", "src/stack_dec/TranslationMetadata.h: translationSatisfiesConstraints"]}
{"id": "C83", "title": "Translation is never stuck", "statement": "While translating with A at least 1 and a pruning parameter that keeps at least one option, every incomplete hypothesis has an extension, so every sentence has a complete translation. (False of the code when a constraint asks for the reserved word UNKNOWN_WORD: proved for the other constraints.)", "quantifier": "all models, all sentences, all incomplete hypotheses", "why_tests_cant": "an unlucky combination of coverage, pruning, unknown words and constraints that leaves no extension cannot be excluded by examples", "anchors": ["src/stack_dec/_pbTransModel.h: expand, getTransForHypUncovGap, getNbestTransForSrcPhrase, getTransInPlainTextVecTs"]}
{"id": "C84", "title": "Translation with a reference produces the reference", "statement": "When translating with a reference or verifying the coverage of a reference, every hypothesis is a prefix of the reference and every complete one is exactly the reference; with a (non-empty) reference the expansion never reads outside it and every source segment is aligned with at least one reference word.", "quantifier": "all models, source sentences and references, all sequences of expansions", "why_tests_cant": "quantifies over all references and segmentations; the unsigned subtraction that bounds the phrase lengths could underflow for some hypothesis", "anchors": ["src/stack_dec/_pbTransModel.h: getTransForHypUncovGapRef, transUncovGapRefNoLastGapCached, transUncovGapRefLastGapCached, getHypDataVecForGapRef, getHypDataVecForGapVer"]}
{"id": "C85", "title": "The decoder returns a hypothesis of the model and says when it gives up", "statement": "For every decoder configuration, in every mode, translate returns without undefined behaviour a hypothesis reachable by expansions; it is complete unless the iteration limit was hit or all hypotheses were consumed (or I is 0); in the modes with reference or prefix an incomplete result is the null hypothesis; empty and too long sentences give the null hypothesis. The same holds after any number of getNextTrans calls.", "quantifier": "all configurations, models, inputs, stack contents left by earlier translations, any number of getNextTrans calls", "why_tests_cant": "quantifies over search histories of unbounded length with recombination and pruning", "anchors": ["src/stack_dec/_stackDecoder.h: translate, translateWithRef, verifyCoverageForRef, translateWithPrefix, getNextTrans, decode, push, pop", "src/stack_dec/_stackDecoderRec.h: push, clear", "src/stack_dec/SmtMultiStackRec.h"]}
{"id": "C86", "title": "The decoder returns a best translation when the search is exact", "statement": "With room for all hypotheses, hypothesis states that identify hypotheses with the same future, and an admissible heuristic, the translation returned has the highest score among all complete hypotheses, with or without best-score pruning; breadth-first search needs no condition on the heuristic. (False of the code when more than one hypothesis is expanded per iteration, or when the container was left in breadth-first mode by an earlier search: proved for I=1 and a container in the right mode.)", "quantifier": "all models, sentences, decoder configurations", "why_tests_cant": "optimality quantifies over all derivations of all inputs", "anchors": ["src/stack_dec/_stackDecoder.h: decode, push, pop", "src/stack_dec/SmtMultiStackRec.h: push, pop", "src/stack_dec/ThotDecoder.cc: set_be"]}
{"id": "C87", "title": "Translations with a prefix begin with the prefix", "statement": "translateWithPrefix(sentence, prefix): the text of every hypothesis explored is a beginning of the prefix or begins with the prefix, and the text of every complete one begins with the prefix; the last word of the prefix may be completed to a longer word only if the prefix does not end in a blank. For every sentence, model and prefix there is a complete translation beginning with the prefix, and no incomplete hypothesis is a dead end.", "quantifier": "every source sentence, prefix, phrase model, weights, pruning parameter and every hypothesis reachable by expansions; every set of constraints remembered from an earlier annotated sentence", "why_tests_cant": "The options combine known phrases, pieces of the prefix, partial words and pruning over any number of expansions; a test covers single prefixes and cannot show that no reachable hypothesis is stuck.", "anchors": ["src/stack_dec/_pbTransModel.h: expand_prefix, getTransForHypUncovGapPref, transUncovGapPrefNoGen, genListOfTransLongerThanPref, trgWordVecIsPrefix, getTransInPlainTextVecTps"]}
{"id": "C88", "title": "Caching of translation options does not change translations", "statement": "The caches of translation options (per source segment; per segment, target length and number of gaps for references; per segment, target length and last-gap flag for prefixes) and of phrase-pair scores never change the hypotheses, scores or order produced when a hypothesis is expanded: the result is the one obtained by computing every option anew, whatever was expanded or translated before.", "quantifier": "every history of earlier sentences (with other parameters and weights), expansions of any hypotheses in any of the four modes and requests of the heuristic; every model, input and hypothesis", "why_tests_cant": "A wrong or missing field in a cache key or a table that is not cleared only shows for particular pairs of hypotheses in particular orders.", "anchors": ["src/stack_dec/_pbTransModel.h: getNbestTransForSrcPhraseCached, transUncovGapRefNoLastGapCached, transUncovGapPrefNoGenCached, nbestTransScoreCached, nbestTransScoreLastCached, clearTempVars", "src/stack_dec/NbestTransCacheData.h", "src/stack_dec/PhrNbestTransTableRefKey.cc", "src/stack_dec/PhrNbestTransTablePrefKey.cc"]}
{"id": "C89", "title": "Translations do not depend on earlier calls", "statement": "With the same models, parameters and stack size, translate, translateWithRef, verifyCoverageForRef and translateWithPrefix return the same hypothesis on a decoder that has been used before as on a new decoder.", "quantifier": "every sequence of earlier calls with any sentences and parameters, requests for further translations and changes of the stack size", "why_tests_cant": "Leftover state shows only after particular histories.", "anchors": ["src/stack_dec/_stackDecoder.h: translate, translateWithRef, verifyCoverageForRef, translateWithPrefix, set_breadthFirst, pop", "src/stack_dec/_pbTransModel.h: pre_trans_actions, pre_trans_actions_ref, pre_trans_actions_ver, pre_trans_actions_prefix", "src/stack_dec/_smtMultiStack.h: set_bf, clear"]}
{"id": "C90", "title": "The search heuristic is the best phrase-by-phrase estimation, and is admissible for local scores", "statement": "For every source segment of the sentence the table computed before the search holds the best total estimation of translating the segment as a sequence of phrases of allowed length with known translations (unknown words get their own estimation); the heuristic of a hypothesis is the sum of these values over its maximal gaps. If the score of every extension is at most the estimation of its phrase and there are no constraints, the heuristic never underestimates the score still to be gained and is 0 for complete hypotheses, so best-first search returns a translation with the best score.", "quantifier": "every sentence, model (options, pruning, phrase length limit), estimation function, segment and reachable hypothesis", "why_tests_cant": "The table is a dynamic programme over all segmentations, exponentially many; admissibility quantifies over all completions.", "anchors": ["src/stack_dec/_pbTransModel.h: initHeuristicLocalt, getLocalTmHeurScore, heuristicLocalt, unkWordScoreHeur"]}
{"id": "C91", "title": "Expansion tries every allowed phrase translation and no other", "statement": "While translating, the extensions of a hypothesis are exactly: each run of untranslated words starting at most U words after the beginning of its gap, of at most A words or constrained, with each of its translations: the constrained one, or the W best options of the model (all those within the threshold), or the unknown word for a single word without options. (Constraints using UNKNOWN_WORD excluded, see C83.)", "quantifier": "all models, sentences, reachable hypotheses, segments and translation options", "why_tests_cant": "a dropped option or segment is only visible as a worse translation of some sentence", "anchors": ["src/stack_dec/_pbTransModel.h: expand, getHypDataVecForGap, getTransForHypUncovGap, getNbestTransForSrcPhrase, unseenSrcWord", "src/nlp_common/NbestTableNode.h: insert, removeLastElement, pruneGivenThreshold"]}
{"id": "C92", "title": "Successive translations come in decreasing order of score", "statement": "After translate has produced a complete translation, the translations produced by the following getNextTrans calls for the same sentence never have a better score than it.", "quantifier": "every model, sentence, admissible heuristic, container size, iteration limit, number of getNextTrans calls; all modes of translation", "why_tests_cant": "It concerns the whole remaining content of the container after any number of pushes, recombinations and evictions; tests see a few sentences.", "anchors": ["src/stack_dec/_stackDecoder.h: decode, getNextTrans, push, pop", "src/stack_dec/_smtMultiStack.h"]}
{"id": "C93", "title": "The word graph of a search describes the search", "statement": "With the word graph enabled, a translation call followed by any number of getNextTrans calls gives the same results as with it disabled and never accesses the graph out of bounds. Every arc stands for the extension of a hypothesis by a phrase: it joins the recombination states of both (different states have different indices), carries the words added to the text, the difference of the scores with heuristic and, if requested, the unweighted score components, is not pruned, and ends in a final state if the extended hypothesis is complete. Every translation returned is the text of a path from the initial state to a final state whose score plus the initial score is the score of the translation (an incomplete first result, too). Conversely every such path spells a hypothesis the search can build, with its score, complete unless the first result was incomplete. With the word graph disabled the graph has no arcs.", "quantifier": "for all models, inputs, search modes (free, reference, verification, prefix), decoder parameters, stack sizes, pruning settings, earlier graphs and containers, and any number of getNextTrans calls", "why_tests_cant": "The graph depends on which hypotheses are pushed, recombined, discarded and re-expanded, over unboundedly many searches.", "anchors": ["src/stack_dec/_stackDecoderRec.h: addArcToWordGraph, pushGivenPredHyp, getHypStateIndex, post_trans_actions", "src/stack_dec/_stackDecoder.h: translate, getNextTrans, decode", "src/stack_dec/SmtMultiStackRec.h", "src/nlp_common/WordGraph.cc: addArc, addArcWithScrComps, addFinalState, setInitialStateScore"]}
{"id": "C94", "title": "An exhausted search leaves a complete word graph", "statement": "If nothing is discarded (no pruning, room in the stacks) and the calls go on until no hypothesis is left, then every complete translation allowed by the models is the text of a path from the initial state to a final state, with its score, even those that recombination kept out of the results.", "quantifier": "for all models, inputs, search modes, decoder parameters and sequences of calls", "why_tests_cant": "It speaks about all derivations of the search space and all orders of expansion.", "anchors": ["src/stack_dec/_stackDecoderRec.h: addArcToWordGraph, pushGivenPredHyp, getHypStateIndex, post_trans_actions", "src/stack_dec/_stackDecoder.h: translate, getNextTrans, decode", "src/stack_dec/SmtMultiStackRec.h", "src/nlp_common/WordGraph.cc: addArc, addArcWithScrComps, addFinalState, setInitialStateScore"]}
{"id": "C95", "title": "Breadth-first search builds topologically ordered word graphs", "statement": "The operations on word graphs (best path, n-best, pruning) expect that no arc enters a state left by an earlier arc. Word graphs built by breadth-first search, whose equivalence classes order hypotheses by number of covered words, have that property; their final states exist.", "quantifier": "for all models, inputs, search modes and numbers of calls; best-first search is a counterexample", "why_tests_cant": "The order of the arcs depends on the whole history of pushes and pops.", "anchors": ["src/stack_dec/_stackDecoderRec.h: addArcToWordGraph, pushGivenPredHyp, getHypStateIndex, post_trans_actions", "src/stack_dec/_stackDecoder.h: translate, getNextTrans, decode", "src/stack_dec/SmtMultiStackRec.h", "src/nlp_common/WordGraph.cc: addArc, addArcWithScrComps, addFinalState, setInitialStateScore", "src/stack_dec/PhrHypNumcovJumpsEqClassF.cc", "src/nlp_common/WordGraph.h:144-148"]}
{"id": "C96", "title": "A trie of vectors is a map over key sequences and is iterated completely", "statement": "TrieVecs behaves as a map from non-empty key sequences to data: after any sequence of insertions, find returns the data of the last insertion for that sequence (and default data for sequences that are only prefixes of inserted ones), and iterating from begin to end visits every stored sequence and prefix exactly once, extensions before prefixes, ending with the empty sequence.", "quantifier": "all sequences of insertions, all key sequences, all positions of the iterator", "why_tests_cant": "the trie keeps sorted vectors at each level and a stack-based iterator; tests only touch a few shapes", "anchors": ["src/nlp_common/TrieVecs.h: TrieVecs::insert, find, const_iterator"]}
{"id": "C97", "title": "The vocabulary of an incremental language model is a bijection that never changes codes", "statement": "After any history of addSymbol, incrCountsOfNgramStr, trainSentence, setNgramOrder and clear on a new n-gram language model: the known words are the standard symbols, the words added and the words of the n-grams counted; every known word has one code and every code one word; unknown words map to the unknown symbol; the vocabulary size is the number of known words; no later call changes the code of a known word.", "quantifier": "all histories of calls, all words", "why_tests_cant": "quantifies over unbounded histories; code reuse appears only after particular orders of calls", "anchors": ["src/incr_models/vecx_x_incr_enc.h", "src/incr_models/lm_ienc.cc", "src/incr_models/_incrNgramLM.h: addSymbol, stringToWordIndex, wordIndexToString, getVocabSize"]}
{"id": "C98", "title": "N-gram counts are the weighted numbers of occurrences in the training sentences", "statement": "After any history of trainings on a new language model, the count of an n-gram (h,w) with |h| smaller than the order is the sum over the trained sentences s of the training weight times the number of occurrences of h w in <s> s </s> (when the cutoff is exceeded), the count of a history is the sum of the counts of its continuations, and a longer history never has a larger count than its suffixes.", "quantifier": "all histories of trainings, sentences, orders, weights and cutoffs, and all n-grams", "why_tests_cant": "the extraction treats the begin of sentence specially at every order; tests cannot cover all sentences and orders", "anchors": ["src/nlp_common/BaseIncrNgramLM.h: trainSentence, collectNgramCounts, updateNgramInfo", "src/incr_models/vecx_x_incr_cptable.h: incrCountsOfEntryLog, cSrc, cSrcTrg"]}
{"id": "C99", "title": "Jelinek-Mercer probabilities form a distribution over the vocabulary", "statement": "With weights in [0,1] for each length of history, the interpolated model gives every known word after a history of known words the interpolation of relative frequencies and of the uniform distribution; the values are non-negative, their sum over the vocabulary is at most 1, it is exactly 1 for a history seen in training, and all are positive when the weights are below 1.", "quantifier": "all histories of trainings, all weights and buckets, all histories of words", "why_tests_cant": "a normalisation property over the whole vocabulary for every reachable table of counts", "anchors": ["src/incr_models/_incrJelMerNgramLM.h: pTrgGivenSrc, pTrgGivenSrcRec, getJelMerWeight"]}
{"id": "C100", "title": "The score of a sentence is the sum of the log-probabilities of its words given their histories", "statement": "getSentenceLog10ProbStr equals 1/ln(10) times the sum over the words and the end of sentence of the log-probability given the last n-1 words of <s> and the preceding words; unknown words count as the unknown word.", "quantifier": "all models reachable by training, all orders, all sentences", "why_tests_cant": "the state machine of the model (fixed-length states padded with <s>) must agree with the definition for every sentence length relative to the order", "anchors": ["src/nlp_common/BaseNgramLM.h: getSentenceLog10Prob", "src/incr_models/_incrNgramLM.h: getStateForBeginOfSentence, addNextWordToState, getNgramLgProbGivenState"]}
{"id": "C101", "title": "Printing a language model and loading it preserves the counts", "statement": "If every word repeated within the history of a printed n-gram is known to the loading model, print followed by load gives a model with the same counts for all n-grams and histories, the words known before and those of the n-grams, and the length of the longest n-gram as order.", "quantifier": "all reachable printed models and all reachable loading models", "why_tests_cant": "loss of counts depends on repeated words and on the order in which the trie is traversed", "anchors": ["src/incr_models/_incrNgramLM.h: print, load_ngrams", "src/incr_models/_incrEncCondProbModel.h: addTableEntryHigh", "src/incr_models/vecx_x_incr_enc.h: genHSrcCode, addHSrcCode"]}
{"id": "C102", "title": "Perplexity sums the scores of the lines of a corpus", "statement": "For a corpus without blank lines perplexity reports the sum of the sentence scores, the numbers of words and of lines, and the exponent is minus the mean per word and end of sentence.", "quantifier": "all corpora without blank lines, all reachable models", "why_tests_cant": "accumulation over an unbounded corpus with a variable that survives from line to line", "anchors": ["src/nlp_common/BaseNgramLM.h: perplexity"]}
{"id": "C103", "title": "Best word alignment of the HMM model is optimal", "statement": "For any parameters with log-probabilities at most zero and any sentence pair within the length limit, the score returned with the best alignment (beyond the sentence length term) is at least the score of every alignment, and is the score of the returned alignment.", "quantifier": "all parameter tables, all sentence pairs of 1 to 200 words, any content of the cache", "why_tests_cant": "Ranges over every alignment (exponentially many) of every sentence pair under every table; the failure needs a score below the floor.", "anchors": ["src/sw_models/_incrHmmAligModel.cc: viterbiAlgorithmCached, bestAligGivenVitMatrices, obtainBestAlignmentCached"]}
{"id": "C104", "title": "Sharing the cache of alignment probabilities changes nothing", "statement": "Aligning any list of sentence pairs with one shared cache gives for every pair exactly the result it would get with a fresh cache.", "quantifier": "all lists of sentence pairs, all parameters", "why_tests_cant": "The cache content depends on the whole history of sentences aligned before.", "anchors": ["src/sw_models/CachedHmmAligLgProb.cc: isDefined, set_boundary_check", "src/sw_models/_incrHmmAligModel.cc: viterbiAlgorithmCached"]}
{"id": "C105", "title": "The sentence probability sums over all alignments", "statement": "The probability of a target sentence given a source sentence is the length probability times the sum, over every alignment, of the product of its transition and lexical probabilities; pairs outside of the length limits get probability zero.", "quantifier": "all parameters, both models (free or fixed null probability), all sentence pairs", "why_tests_cant": "Equality with a sum over exponentially many alignments, for every length.", "anchors": ["src/sw_models/_incrHmmAligModel.cc: calcLgProb, forwardAlgorithm, lgProbGivenForwardMatrix"]}
{"id": "C106", "title": "Expected values of training are posterior probabilities", "statement": "The expected value computed for source position i and target position j is the posterior probability that j is aligned to i (clipped to the two bounds), and the posteriors of each target position add up to one.", "quantifier": "all parameters, all sentence pairs, all positions", "why_tests_cant": "Relates the alpha and beta recursions to a sum over all alignments.", "anchors": ["src/sw_models/_incrHmmAligModel.cc: calcAlphaMatrix, calcBetaMatrix, calc_lanji"]}
{"id": "C107", "title": "HMM probabilities of all target sentences add up to one", "statement": "For any source sentence the probabilities of all target sentences of a length add up to the probability of that length, and the lexical and transition probabilities of each context add up to one.", "quantifier": "all parameters and source sentences, all target lengths", "why_tests_cant": "A sum over every sentence; fails for unseen words or source lengths, which a test with trained data does not reach.", "anchors": ["src/sw_models/_incrHmmAligModel.cc: pts, logpts, unsmoothed_logaProb, logaProb", "src/sw_models/_incrHmmP0AligModel.cc: unsmoothed_logaProb"]}
{"id": "C108", "title": "Noisy-or score", "statement": "The noisy-or score is the product over the target words of one minus the product of the probabilities that no source word produces it; it lies in [0,1], never decreases when source words are added and never increases when target words are added.", "quantifier": "all tables with probabilities in [0,1], all sentences", "why_tests_cant": "Monotonicity over all extensions of all sentences.", "anchors": ["src/sw_models/_incrHmmAligModel.cc: noisyOrLgProb"]}
{"id": "C109", "title": "Incremental training counts every sentence pair once", "statement": "After any sequence of training calls over any ranges, each numerator is the sum over the sentence pairs trained so far of their most recent expected values times their weights, each denominator is the sum of its numerators, and batch training leaves exactly the counts of its range.", "quantifier": "all corpora, all sequences of training calls, any expected values, any size of the memory of expected values", "why_tests_cant": "Depends on the whole history of calls; double counting appears only when a bounded memory recycles an entry.", "anchors": ["src/sw_models/anjiMatrix.cc: init_nth_entry, map_n_in_matrix, get_fast, set_fast", "src/sw_models/_incrHmmAligModel.cc: calcNewLocalSuffStats, fillEmAuxVarsLex, fillEmAuxVarsAlig, updateParsLex, updateParsAlig, efficientBatchTrainingForRange"]}
{"id": "C110", "title": "Random access to the sentence pairs of a corpus", "statement": "After reading a corpus, any sequence of additions, accesses (pair, source, target, count), size queries and printing, in any order, behaves as the plain list of the pairs in the files followed by the added ones.", "quantifier": "all corpora, all previous states, all sequences of calls", "why_tests_cant": "The handler keeps one cursor in three files; the result could depend on the whole order of accesses.", "anchors": ["src/sw_models/LightSentenceHandler.cc: nthSentPair, nthSentPairFromFiles, getNextLineFromFiles, rewindFiles, addSentPair, getSrcSent, getTrgSent, getCount"]}
{"id": "C111", "title": "Result and range of reading a corpus", "statement": "Reading fails exactly when a file cannot be opened or the numbers of source and target lines differ, and the returned range visits each sentence pair once; adding a pair returns the range of that pair.", "quantifier": "all pairs of files", "why_tests_cant": "The empty corpus and the extra target lines are corner cases of unbounded inputs.", "anchors": ["src/sw_models/LightSentenceHandler.cc: readSentencePairs, addSentPair"]}
{"id": "C112", "title": "Printing and reading back sentence pairs", "statement": "Printing the pairs (read and added) and reading the printed files into any handler gives the same pairs with the same counts.", "quantifier": "all corpora, all added pairs whose words have no blanks, newlines or NUL", "why_tests_cant": "Round trip through files for all words and sentences.", "anchors": ["src/sw_models/LightSentenceHandler.cc: printSentPairs, readSentencePairs"]}
{"id": "C113", "title": "N-gram matches are clipped counts", "statement": "The number of matching n-grams that BLEU and chrF count for two sentences is the sum, over the different n-grams, of the smaller of their numbers of occurrences; it is symmetric, at most the number of n-grams of each sentence, and equal to it exactly when no n-gram appears more times than in the other.", "quantifier": "all pairs of sentences, all n", "why_tests_cant": "The matching uses greedy marking; equality with the clipped sum needs an argument for all sequences.", "anchors": ["src/stack_dec/bleu.cc: prec_n", "src/stack_dec/chrf.cc: count_ngrams"]}
{"id": "C114", "title": "Corpus BLEU", "statement": "The score of calc_bleu is the brevity penalty times the geometric mean of the clipped precisions of orders 1 to 4, between 0 and 1; an error is reported iff the system file has fewer lines; a corpus compared with itself scores 1 iff some sentence has four words.", "quantifier": "all corpora", "why_tests_cant": "Bounds and exact value over all corpora.", "anchors": ["src/stack_dec/bleu.cc: calc_bleuf, prec_n, my_log"]}
{"id": "C115", "title": "BLEU of the weight updater", "statement": "The sentence score is in (0,1], 1 exactly for complete matches not shorter than the reference; the corpus score equals the BLEU of calc_bleu and is in [0,1]; the background score is nonnegative and bounded.", "quantifier": "all sentences, corpora and histories of background updates", "why_tests_cant": "The corpus claim is false for corpora of short sentences: a case that tests with long sentences miss.", "anchors": ["src/stack_dec/MiraBleu.cc: scoreFromStats, statsForSentence, sentScore, sentBackgroundScore, corpusScore"]}
{"id": "C116", "title": "Word error rate", "statement": "The number of errors is the length of the shortest edit script; the score of a sentence or corpus is one minus errors per reference word, at most 1, and 1 exactly when the candidates are the references.", "quantifier": "all sentences and corpora", "why_tests_cant": "Minimality over all scripts.", "anchors": ["src/stack_dec/MiraWer.cc: ed, sentScore, sentBackgroundScore, corpusScore"]}
{"id": "C117", "title": "chrF", "statement": "The score of two sentences is in [0,1], 1 exactly when they have the same length and the same character n-grams (n<=4), 0 exactly when one is empty or they share no character, otherwise the F measure with recall weighted 3 times; it ignores repeated blanks; the corpus score is the mean.", "quantifier": "all pairs of strings, all nonempty corpora", "why_tests_cant": "The averaged precision may exceed 1, so that the bound on F needs a proof.", "anchors": ["src/stack_dec/chrf.cc: calculate_chrf, count_ngrams", "src/stack_dec/MiraChrF.cc: sentScore, corpusScore"]}
{"id": "C118", "title": "General text matcher", "statement": "The number of matches is the number of words that can be paired, whatever order std::sort leaves equal sizes in; the score is twice the matches divided by the sum of the lengths, between 0 and 1.", "quantifier": "all sentences, corpora and results of the unstable sort", "why_tests_cant": "std::sort may order equal sizes in any way; the greedy covering must be shown independent of it.", "anchors": ["src/stack_dec/MiraGtm.cc: sorted_common_ngrams, statsForSentence, scoreFromStats, sentScore, corpusScore"]}
{"id": "C119", "title": "Hope and fear translations", "statement": "The weight updater selects as hope (fear) translation the first candidate with the greatest sum (difference) of model score and quality, and as best translation the first one with the greatest score; the quality of hope is not less than that of fear.", "quantifier": "all n-best lists, weights and quality functions", "why_tests_cant": "Optimality over arbitrary lists.", "anchors": ["src/stack_dec/KbMiraLlWu.cc: HopeFear, MaxTranslation"]}
{"id": "C120", "title": "Weight update is optimal", "statement": "When the loss is positive the new weights minimize half the square distance to the old ones plus C times the loss (the passive-aggressive problem); the loss does not increase, and becomes 0 unless the step is capped.", "quantifier": "all weights, feature differences, qualities and C>=0", "why_tests_cant": "Optimality against every vector of weights.", "anchors": ["src/stack_dec/KbMiraLlWu.cc: update, updateClosedCorpus"]}
{"id": "C121", "title": "Result of the weight updater", "statement": "The new weights are as many as the old ones: they are the first of the averages evaluated with the greatest score; and nothing uninitialized is read.", "quantifier": "all n-best lists, corpora, scorers, parameters and random numbers", "why_tests_cant": "False when no score is positive (the vector is empty), which typical data do not show; the rest quantifies over all runs.", "anchors": ["src/stack_dec/KbMiraLlWu.cc: update, updateClosedCorpus"]}
{"id": "C122", "title": "Epochs visit each sentence once", "statement": "Whatever rand() returns, the shuffled order of an epoch contains every sentence of the corpus exactly once, and the shuffling stays in bounds.", "quantifier": "all sizes and random sequences", "why_tests_cant": "Randomized order.", "anchors": ["src/stack_dec/KbMiraLlWu.cc: sampleWoReplacement"]}
{"id": "C123", "title": "The probability of a sentence pair is the total over alignments", "statement": "In IBM models 1 and 2, calcLgProb(srcSent, trgSent) is the logarithm of the sum, over all functions from target positions to source positions (or the null word), of the joint probability of target sentence and alignment; IBM 1 gives zero probability to pairs with an empty or too long (more than 1024 words) sentence.", "quantifier": "all parameters, sentences and values of the length probability", "why_tests_cant": "The property ranges over all parameters, sentences and alignments; tests can only try some.", "anchors": ["src/sw_models/IncrIbm1AligModel.cc; src/sw_models/IncrIbm2AligModel.cc::calcLgProb, calcSumIBM1LgProb, calcSumIBM2LgProb"]}
{"id": "C124", "title": "The best alignment of IBM 1 and 2 is optimal", "statement": "obtainBestAlignment returns the matrix of an alignment, the score it returns is the joint probability of that alignment, no alignment has a higher one, and nothing is written outside the matrix; IBM 1 gives probability zero and an empty matrix for pairs it rejects.", "quantifier": "all nonnegative parameters and sentences", "why_tests_cant": "The property ranges over all parameters, sentences and alignments; tests can only try some.", "anchors": ["src/sw_models/IncrIbm1AligModel.cc; src/sw_models/IncrIbm2AligModel.cc::obtainBestAlignment, lexM1LpForBestAlig, lexAligM2LpForBestAlig"]}
{"id": "C125", "title": "The score of an alignment matrix is that of the alignment", "statement": "calcLgProbForAlig of the matrix returned by obtainBestAlignment is the score returned with it.", "quantifier": "all nonnegative parameters and sentences", "why_tests_cant": "The property ranges over all parameters, sentences and alignments; tests can only try some.", "anchors": ["src/sw_models/IncrIbm1AligModel.cc; src/sw_models/IncrIbm2AligModel.cc::calcLgProbForAlig; src/nlp_common/WordAligMatrix.cc::getAligVec"]}
{"id": "C126", "title": "Partial probabilities add up to the probability of the pair", "statement": "Feeding a source sentence to the partial probability functions in any number of chunks gives the probability of the pair without that of the length, whatever the chunks; subtracting the heuristic for the words not yet added undoes adding it; and the heuristic is optimistic.", "quantifier": "all parameters, sentences and ways to cut the source sentence", "why_tests_cant": "The property ranges over all parameters, sentences and alignments; tests can only try some.", "anchors": ["src/sw_models/IncrIbm1AligModel.cc; src/sw_models/IncrIbm2AligModel.cc::initPpInfo, partialProbWithoutLen, lpFromPpInfo, addHeurForNotAddedWords, sustHeurForNotAddedWords, lgProbOfBestTransForTrgWord"]}
{"id": "C127", "title": "Trained IBM 1 and 2 parameters are probability distributions", "statement": "After any history of incremental training on ranges of sentence pairs, or a batch training, the lexical parameters of every source word of a trained pair and of the null word are a distribution over the target words of trained pairs, a lexical parameter is positive exactly when the words occur together in a trained pair, and the alignment parameters of a trained pair are distributions over its source positions.", "quantifier": "all corpora with positive weights and all histories of training", "why_tests_cant": "A history of training can have any length and order.", "anchors": ["src/sw_models/IncrIbm1AligModel.cc; src/sw_models/IncrIbm2AligModel.cc::trainSentPairRange, efficientBatchTrainingForRange"]}
{"id": "C128", "title": "IBM 1 and 2 define distributions over target sentences", "statement": "The probabilities that calcLgProb gives to all the target sentences of a given length over the vocabulary add up to the probability of the length.", "quantifier": "all parameters that are distributions (in particular those of any training), source sentences and lengths", "why_tests_cant": "The sum ranges over exponentially many sentences.", "anchors": ["src/sw_models/IncrIbm1AligModel.cc; src/sw_models/IncrIbm2AligModel.cc::calcLgProb"]}
{"id": "C129", "title": "Training never lowers the likelihood", "statement": "An iteration of batch training of IBM 1 or 2 does not decrease the log-likelihood of the training range that the program reports.", "quantifier": "all corpora, weights and current parameters", "why_tests_cant": "It is an inequality about all parameter values.", "anchors": ["src/sw_models/IncrIbm1AligModel.cc; src/sw_models/IncrIbm2AligModel.cc::efficientBatchTrainingForRange, loglikelihoodForPairRange"]}
{"id": "C130", "title": "The sentence length model holds the weighted mean and variance", "statement": "After training on any list of pairs, the length model uses for each source length the weighted mean of the target lengths and their weighted variance (corrected by n/(n-1)) when two pairs or more were seen, and otherwise the source length plus the difference of average lengths with a quarter of that as deviation; the order of the pairs does not matter.", "quantifier": "all lists of lengths and positive weights", "why_tests_cant": "Lists of any length in any order.", "anchors": ["src/sw_models/WeightedIncrNormSlm.cc; src/sw_models/_sentLengthModel.cc::trainSentPair, get_mean_stddev, sumSentLenProbNorm"]}
{"id": "C131", "title": "Passing again over the same pairs keeps the length distribution", "statement": "Training the length model again on the same pairs, as every further EM iteration does, leaves its mean and deviation unchanged.", "quantifier": "all lists of pairs and numbers of passes", "why_tests_cant": "Any number of passes over any list.", "anchors": ["src/sw_models/WeightedIncrNormSlm.cc; src/sw_models/_sentLengthModel.cc::trainSentPairRange"]}
{"id": "C132", "title": "Length probabilities", "statement": "No target length has probability below 1e-7, the empty target sentence has exactly that one, the probability of another length is that of the unit interval around it unless it is below the floor, and the probabilities of the lengths from 1 to N add up to at most 1+N*1e-7, as long as the deviation is not negative.", "quantifier": "all models, source lengths and N", "why_tests_cant": "Sums over any number of lengths.", "anchors": ["src/sw_models/WeightedIncrNormSlm.cc; src/sw_models/_sentLengthModel.cc::sentLenLgProb, sentLenLgProbNorm, sumSentLenProbNorm"]}
{"id": "C133", "title": "Merging tables of counts adds the counts of every process", "statement": "thot_merge_bin_ilextable, thot_merge_bin_iibm2atable and thot_merge_bin_ihmmatable, given any number of sorted tables of counts (at least one of them not empty), write a sorted table with one record for each pair of events that is in some table; its numerator is the sum of the numerators of the pair and its denominator the sum of the denominators of the source over the tables that have it, whatever the order in which records with equal keys leave the priority queue; if every input is normalised so is the output; if all tables are empty, the program reads the first element of an empty vector.", "quantifier": "every number of files, every contents of the files, every order of ties", "why_tests_cant": "The result depends on the contents of every file and on the order in which equal keys leave the queue; tests sample a few tables.", "anchors": ["src/sw_models/thot_merge_bin_ilextable.cc: main, initPrQueue, getNextEntry, printCounts", "src/sw_models/thot_merge_bin_iibm2atable.cc: main", "src/sw_models/thot_merge_bin_ihmmatable.cc: main"]}
{"id": "C134", "title": "Pruning a lexical table keeps the best entries and renormalises", "statement": "thot_prune_bin_ilextable keeps for each source word its most frequent targets: at most n of them (if n is positive), all with a relative frequency of at least c, no dropped entry being better than a kept one and no entry dropped while it fulfils both conditions; the denominators written are the sums of the kept numerators.", "quantifier": "every sorted table, every n and c, every order of ties", "why_tests_cant": "The result depends on the contents of every file and on the order in which equal keys leave the queue; tests sample a few tables.", "anchors": ["src/sw_models/thot_prune_bin_ilextable.cc: main, printCounts, SortByLogCount"]}
{"id": "C135", "title": "Filtering a lexical table keeps exactly the listed pairs", "statement": "thot_filter_bin_ilextable, given a sorted table and a sorted list of pairs, writes exactly the records of the table whose pair is in the list.", "quantifier": "every sorted table and every sorted list", "why_tests_cant": "The result depends on the contents of every file and on the order in which equal keys leave the queue; tests sample a few tables.", "anchors": ["src/sw_models/thot_filter_bin_ilextable.cc: main"]}
{"id": "C136", "title": "The lexical table in memory returns the last counts set and survives printing", "statement": "After any history of calls of IncrLexTable, the numerator of a pair and the denominator of a source are the last ones set since the table was cleared; the sources returned for a target are those with a numerator; printing the table and loading the file preserves every numerator and the denominators of sources with some numerator; loading the output of the merge tool gives the sums of the counts of the merged files.", "quantifier": "every history of calls, every pair of words, every set of merged tables", "why_tests_cant": "The result depends on the contents of every file and on the order in which equal keys leave the queue; tests sample a few tables.", "anchors": ["src/sw_models/IncrLexTable.cc: setLexNumer, getLexNumer, setLexDenom, getLexDenom, getTransForTarget, printBin, loadBin", "src/sw_models/thot_merge_bin_ilextable.cc: main"]}
{"id": "C137", "title": "Suggestions complete the text typed by the user", "statement": "Whatever was processed before, each suggestion of the word-graph processor of interactive translation starts with the words typed by the user, where only an incomplete last word may be completed, and goes on with the words of the end of a path of the word graph.", "quantifier": "all word graphs, costs, weights, histories of calls, prefixes and lists of rejected words", "why_tests_cant": "The tables and the trace back depend on the graph, on the prefix and on all earlier calls.", "anchors": ["src/error_correction/WgProcessorForAnlp.h: correct, obtainNbestCorrections", "src/error_correction/PfsmEcmForWg.cc; src/error_correction/EditDistForVecString.cc: incrEditDistPrefixCached"]}
{"id": "C138", "title": "The suggestions are the best candidates", "statement": "The scores of the suggestions are the n greatest ones among those of all candidates (states of the graph and positions inside its arcs), in decreasing order.", "quantifier": "all graphs, processor states, prefixes and n", "why_tests_cant": "The candidates come from two lists of at most n elements that are merged; tests try a few graphs.", "anchors": ["src/error_correction/WgProcessorForAnlp.h: correct, obtainNbestCorrections"]}
{"id": "C139", "title": "The suggestions do not depend on the history", "statement": "The suggestions for a prefix are the same whatever prefixes were processed before for the same graph.", "quantifier": "all graphs and all sequences of prefixes", "why_tests_cant": "The tables are computed incrementally; every sequence of prefixes is another history.", "anchors": ["src/error_correction/WgProcessorForAnlp.h: correct, obtainNbestCorrections", "src/error_correction/WgProcessorForAnlp.h: getValidProcPrefixVec, updateSizeOfVars, procWgGivenPrefDiff", "src/error_correction/PfsmEcmForWg.cc; src/error_correction/EditDistForVecString.cc: incrEditDistPrefixCached"]}
{"id": "C140", "title": "The score of a suggestion is the score of its words", "statement": "The score of a suggestion is the weighted sum of the score of a path of the graph with its words and of the cost of correcting the beginning of this path into the text of the user.", "quantifier": "all graphs, prefixes and histories", "why_tests_cant": "Needs all paths of all graphs and all edit scripts.", "anchors": ["src/error_correction/WgProcessorForAnlp.h: correct, obtainNbestCorrections", "src/error_correction/WgProcessorForAnlp.h: updateBestScoresForState, obtainNbestHypSubStates", "src/error_correction/PfsmEcmForWg.cc; src/error_correction/EditDistForVecString.cc: incrEditDistPrefixCached"]}
{"id": "C141", "title": "Rejected words are not suggested again", "statement": "The word that follows the text of the user in a suggestion starts with the accepted part and does not go on with a rejected part; the suggestion leads to a final state if one can be reached in this way.", "quantifier": "all graphs, histories, prefixes and lists of rejected words", "why_tests_cant": "Any word of any graph can be rejected at any position.", "anchors": ["src/error_correction/WgProcessorForAnlp.h: correct, obtainNbestCorrections", "src/error_correction/WgProcessorForAnlp.h: wordSatisfiesRejWordConstraint, obtainCorrForHypState"]}
{"id": "C142", "title": "The score of a translation is the weighted sum of the features of its phrases", "statement": "However a hypothesis was built (any sequence of extensions, each adding one or more phrases), its score equals the sum over the features of the weight times the value of the feature for the list of phrases: sum of the phrase scores; log-probability of the target words, plus the end of sentence once the source is covered; word penalty of the target length; scores of the jumps between consecutive phrases; scores of the source and target phrase lengths. The component vectors returned at each extension have one entry per feature and add up to these values.", "quantifier": "any list of features, weights, models, source sentence and sequence of extensions", "why_tests_cant": "it relates the incremental computation along any history to a closed formula", "anchors": ["stack_dec/PbTransModel.h: nullHypothesisScrComps, incrScore", "stack_dec/LangModelFeat.cc", "stack_dec/WordPenaltyFeat.cc", "stack_dec/SrcPosJumpFeat.cc", "stack_dec/SrcPhraseLenFeat.cc", "stack_dec/TrgPhraseLenFeat.cc", "stack_dec/DirectPhraseModelFeat.cc", "stack_dec/InversePhraseModelFeat.cc", "phrase_models/TrgSegmLenTable.cc"]}
{"id": "C143", "title": "Recombination never loses a better translation", "statement": "Two hypotheses with the same state (language model state, target length, end of the last source phrase, covered positions) get the same additional score from every sequence of extensions, and reach equal states again.", "quantifier": "any features, any two histories of extensions, any continuation", "why_tests_cant": "it ranges over pairs of histories and all their continuations", "anchors": ["stack_dec/PhraseBasedTmHypRec.h: getHypState", "stack_dec/PbTransModel.h: incrScore", "stack_dec/PhrScoreInfo.h", "phrase_models/TrgSegmLenTable.cc: trgSegmLenLgProbUniform"]}
{"id": "C144", "title": "The distortion heuristic is the cost of the remaining jumps", "statement": "The distortion part of the LOCAL_TD heuristic is the weighted score of the jumps made when the remaining gaps are translated from left to right.", "quantifier": "any set of gaps, last covered position, features and weights", "why_tests_cant": "it ranges over all hypotheses", "anchors": ["stack_dec/SrcPosJumpFeat.h: min_jumps, calcHeurScore", "stack_dec/_pbTransModel.h: getDistortionHeurScore"]}
{"id": "C145", "title": "The heuristic of translation with a reference is the score of the rest of the reference", "statement": "When translating with a reference, the heuristic of a hypothesis that has produced the first words of the reference is the weighted language model score of the remaining words and of the end of the sentence.", "quantifier": "any features, weights, reference and length of the partial translation", "why_tests_cant": "it ranges over all references and language models", "anchors": ["stack_dec/_pbTransModel.h: calcRefLmHeurScore", "stack_dec/LangModelFeat.h: scoreTrgSentence"]}
{"id": "C146", "title": "The heuristic of translation with a prefix is the score of the rest of the prefix", "statement": "When translating with a prefix, the heuristic of a hypothesis is the weighted language model score of the words of the prefix not produced yet, and zero afterwards.", "quantifier": "any features, weights, prefix and length of the partial translation", "why_tests_cant": "it ranges over all prefixes and language models", "anchors": ["stack_dec/_pbTransModel.h: calcPrefLmHeurScore", "stack_dec/LangModelFeat.h: scoreTrgSentence"]}
{"id": "C147", "title": "Stacks and states of hypotheses are well defined", "statement": "The stack of a hypothesis is determined by the number of words translated and by whether its phrases are monotone (each one starts right after the previous one). The order of hypothesis states is a strict total order whose equivalence is equality of the language model state, target length, end of the last phrase and coverage.", "quantifier": "any list of phrases; any three states", "why_tests_cant": "it ranges over all hypotheses and states", "anchors": ["stack_dec/PhrHypNumcovJumpsEqClassF.cc", "stack_dec/PhrHypNumcovJumps01EqClassF.cc", "stack_dec/PhrHypState.cc: operator<"]}
{"id": "C148", "title": "Weights of the error correction model define a probability distribution", "statement": "After any history of calls of setWeights the weights in force are those of the last valid call (five positive values with a hit probability below one), invalid calls leave them unchanged, and the costs used by the error correction are minus the logarithms of the probabilities of hits, insertions, substitutions and deletions: all in (0,1), in the proportions of the given factors, and adding up to one over the vocabulary.", "quantifier": "any finite history of calls with vectors of any length of real numbers", "why_tests_cant": "it ranges over all histories and all real parameters", "anchors": ["error_correction/PfsmEcm.cc: PfsmEcm, setWeights, setErrorModel, obtainErrorProbsFromParams", "error_correction/PfsmEcm.h"]}
{"id": "C149", "title": "Correcting a plain translation keeps the prefix of the user", "statement": "Correcting a non-empty translation with a prefix gives exactly one correction: its score is minus the edit distance of the translation to the prefix and its text begins with the text typed by the user; an empty prefix leaves the translation unchanged with score zero.", "quantifier": "any translation, prefix, costs with a non-zero deletion cost and size of the n-best list", "why_tests_cant": "it ranges over all translations and prefixes", "anchors": ["error_correction/NonPbEcModelForNbUcat.cc: correct, nonPhraseBasedAlign, correctedSent, obtainVectorWithSegms, getLastOutSegm"]}
{"id": "C150", "title": "Every suggestion of an interactive session begins with what the user typed", "statement": "Whatever the history of requests of a user (start of a sentence, adding text, setting and resetting the prefix), the prefix kept by the system is the text the user typed and every suggestion begins with exactly this text.", "quantifier": "any history of requests, any translation engine, pre/post-processor and word predictor", "why_tests_cant": "it ranges over all histories of sessions and all answers of the engine", "anchors": ["stack_dec/ThotDecoder.cc: startCat, addStrToPrefAux, setPref, resetPrefixAux, robustMergeTransWithUserPref, robustMergePostProcTransWithUserPref, robustObtainFinalOutput", "stack_dec/WgUncoupledAssistedTrans.h: translateWithPrefix, addStrToPrefix, resetPrefix"]}
{"id": "C151", "title": "Suggestions depend on the typed text and not on how it was typed", "statement": "In a session two sequences of requests after the same start that leave the user with the same text get the same suggestion from their last request; in particular setting the prefix is the same as resetting it and adding the new text, and text can be added at once or in pieces.", "quantifier": "any state, any two sequences of requests of a sentence, any engine", "why_tests_cant": "it ranges over all pairs of histories", "anchors": ["stack_dec/ThotDecoder.cc: addStrToPrefAux, setPref, resetPrefixAux", "stack_dec/WgUncoupledAssistedTrans.h: addStrToPrefix, resetPrefix"]}
{"id": "C152", "title": "Post-processing a suggestion reads only inside the translation", "statement": "With pre/post-processing every request of a session, after any history, reads only inside the translation and the prefixes.", "quantifier": "any history of requests and any pre/post-processor, engine and word predictor", "why_tests_cant": "it ranges over all histories and all texts", "anchors": ["stack_dec/ThotDecoder.cc: postprocWithCriticalError, robustObtainFinalOutput"]}
{"id": "C153", "title": "Merging a translation with the prefix keeps the words of the translation", "statement": "Without pre/post-processing, if the translation contains the (completed) text of the user, the suggestion has exactly the words of the translation; otherwise the suggestion is the text of the user.", "quantifier": "any translation and any text without tabs", "why_tests_cant": "it ranges over all pairs of texts and their blanks", "anchors": ["stack_dec/ThotDecoder.cc: robustMergeTransWithUserPref"]}
{"id": "C154", "title": "Completion of the last word", "statement": "Completing the last word of a text changes nothing if the text is empty, ends with a blank or has a last word of one character; otherwise the text is followed by what the word predictor proposes for the last word given the two words before it and, if that is not empty, by a blank. The result returned is the completed last word.", "quantifier": "any text and any word predictor", "why_tests_cant": "it ranges over all texts and predictors", "anchors": ["stack_dec/ThotDecoder.cc: expandLastWord"]}
{"id": "C155", "title": "Segmentation-based extraction weighs each phrase pair by the fraction of bilingual segmentations that use it", "statement": "For a word-aligned sentence pair of at most 100 words on each side, segmBasedExtraction returns the (logarithm of the) number of bilingual segmentations of the sentence pair into phrase pairs that the ordinary extraction would give, and outputs, exactly once for each pair of segments used in some segmentation, the corresponding phrase pair with weight (number of segmentations using it)/(number of segmentations). Hence, if there is a segmentation, the weights of the pairs that cover a given source word, or a given target word, add up to one.", "quantifier": "all sentence pairs, alignment matrices and extraction parameters", "why_tests_cant": "The number of segmentations is exponential in the sentence length; the dynamic programming memoises nodes in a shared map, so a wrong key or a missed update shows only with particular crossing alignments.", "anchors": ["src/phrase_models/PhraseExtractionTable.cc:segmBasedExtraction", "src/phrase_models/PhraseExtractionTable.cc:fillSrfNodeInfoMapRec", "src/phrase_models/BpSet.cc", "src/phrase_models/SrfNodeInfoMap.cc"]}
{"id": "C156", "title": "The trie phrase table behaves as three independent count maps", "statement": "For every history of additions, increments and clears on HatTriePhraseTable with phrases whose word indices are below 254^3 and different from the reserved word 2 and with non-empty targets, getSrcInfo, getTrgInfo, getSrcTrgInfo, cSrc, cTrg, cSrcTrg, infSrcTrg, pTrgGivenSrc and pSrcGivenTrg answer as three independent maps (source, target, pair) would; after increments the counts are the totals of the increments; the answers coincide with those of StlPhraseTable on the same history. The three restrictions are needed.", "quantifier": "all histories of calls, all legal phrases, all iteration orders of the trie", "why_tests_cant": "tests use a handful of phrases; non-interference of the three record kinds in one key space is a statement about all byte keys", "anchors": ["src/phrase_models/HatTriePhraseTable.cc:incrCountsOfEntry", "src/phrase_models/HatTriePhraseTable.cc:addTableEntry", "src/phrase_models/HatTriePhraseTable.cc:infSrcTrg", "src/phrase_models/HatTriePhraseTable.cc:vectorToKey"]}
{"id": "C157", "title": "Scans of the trie phrase table are exact", "statement": "getEntriesForTarget returns exactly the recorded source phrases with non-negligible counts; getEntriesForSource returns exactly the recorded targets of a source phrase; getNbestForSrc/getNbestForTrg rank these by c(s,t)/c(s) resp. c(s,t)/c(t) and keep the best N. The full claim for sources fails: pairs whose pair or target count is below one are dropped (conversion to int).", "quantifier": "all histories, legal phrases, iteration orders, N, score functions", "why_tests_cant": "a test cannot cover all tables; the loss needs fractional counts", "anchors": ["src/phrase_models/HatTriePhraseTable.cc:getEntriesForTarget", "src/phrase_models/HatTriePhraseTable.cc:getEntriesForSource", "src/phrase_models/HatTriePhraseTable.cc:getNbestForSrc", "src/phrase_models/HatTriePhraseTable.cc:getNbestForTrg"]}
{"id": "C158", "title": "Iterating over the trie phrase table", "statement": "The loop from begin() to end() visits the recorded target phrases with nonzero counts, each once with its count; size() is the number of source, target and pair records. The full claim fails: begin() is undefined on a table without target records, and a target with count zero is visited if it happens to come first.", "quantifier": "all histories, all iteration orders", "why_tests_cant": "iteration order is unspecified and the failure needs an empty table or a zero count in first place", "anchors": ["src/phrase_models/HatTriePhraseTable.cc:begin", "src/phrase_models/HatTriePhraseTable.cc:const_iterator::operator++", "src/phrase_models/HatTriePhraseTable.cc:size"]}
{"id": "C159", "title": "Training a phrase model accumulates exactly the weights of the extracted phrase pairs", "statement": "After training a phrase model on a corpus of word-aligned sentence pairs (in either estimation mode, with any numbers of repetitions), the count of any phrase pair, of any source phrase and of any target phrase, asked by words, is the sum over the sentence pairs of repetitions times weight of the phrase pairs extracted from them that have those words; the order of the sentence pairs does not matter, and the count of a phrase is the sum of the counts of its pairs.", "quantifier": "every corpus of aligned sentence pairs (source with a word, matrices of the right sizes, no reserved word; vocabularies up to 254^3 words), every queried phrase pair", "why_tests_cant": "the sums range over arbitrary corpora and the property is about every word sequence, including never seen ones", "anchors": ["src/phrase_models/_wbaIncrPhraseModel.cc:_wbaIncrPhraseModel::extendModelFromPairPlusAlig", "src/phrase_models/_wbaIncrPhraseModel.cc:_wbaIncrPhraseModel::storePhrasePairs", "src/phrase_models/_incrPhraseModel.cc:_incrPhraseModel::strIncrCountsOfEntry"]}
{"id": "C160", "title": "The category filters accept exactly the phrase pairs with matching category tags", "statement": "The category filter accepts a phrase pair iff both phrases contain each of <digit>, <number> and <alfanum> the same number of times; the strict filter accepts it iff neither phrase contains a category tag or the phrases are equal.", "quantifier": "every pair of word sequences", "why_tests_cant": "word sequences are unbounded", "anchors": ["src/phrase_models/CategPhrasePairFilter.cc:CategPhrasePairFilter::phrasePairIsOk", "src/phrase_models/StrictCategPhrasePairFilter.cc:StrictCategPhrasePairFilter::phrasePairIsOk"]}
{"id": "C161", "title": "A printed phrase table can be loaded back with the same counts", "statement": "Printing the phrase table of a model and loading the file into any model succeeds and gives every phrase pair, source phrase and target phrase the count it had, whatever the order in which the table is traversed, and nothing of the previous table of the loading model is left.", "quantifier": "every sequence of updates of the model with writable words, every iteration order of the table, every state of the loading model", "why_tests_cant": "tables are unbounded and the iteration order of the trie is not fixed by the code", "anchors": ["src/phrase_models/WbaIncrPhraseModel.cc:WbaIncrPhraseModel::printTTable", "src/phrase_models/_incrPhraseModel.cc:_incrPhraseModel::loadPlainTextTTable"]}
{"id": "C162", "title": "GIZA alignment files read back what was written", "statement": "Printing any list of word-aligned sentence pairs in GIZA format and reading the file with an alignment extractor returns the same sentence pairs in the same order, with the same alignment matrices (counts greater than one included) and the printed number of repetitions.", "quantifier": "any list of sentence pairs with writable words, matrices with the sizes of the sentences and any counts", "why_tests_cant": "The reader counts bracket tokens and re-parses positions; it must work for every matrix and every word.", "anchors": ["src/nlp_common/printAligFuncs.cc printAlignmentInGIZAFormat", "src/phrase_models/AlignmentExtractor.cc getNextAlignInGIZAFormat"]}
{"id": "C163", "title": "Matrix-format alignment files read back what was written", "statement": "Printing any list of word-aligned sentence pairs in the matrix format and reading the file returns the same sentence pairs in the same order with the same matrices.", "quantifier": "any list of sentence pairs with writable words and any matrix values an int can hold", "why_tests_cant": "Rows are printed from last to first and read by position; all sizes and values matter.", "anchors": ["src/nlp_common/printAligFuncs.cc printAlignmentInMyFormat", "src/nlp_common/WordAligMatrix.cc operator<<", "src/phrase_models/AlignmentExtractor.cc getNextAlignInAlignOpFormat"]}
{"id": "C164", "title": "An operation between two alignment files", "statement": "and/or/sum/sym1/sym2/grd between two alignment files writes one entry for each position present in both; the entry has the sentences of the first file and the result of the matrix operation on the two matrices of that position (the second transposed if asked) when the sentence pairs are equal, and the matrix of the first file otherwise.", "quantifier": "any two lists of entries, operation, transposition flag", "why_tests_cant": "Depends on the alignment of two streams and on matrix fixpoints of any size.", "anchors": ["src/phrase_models/AlignmentExtractor.cc join intersect sum symmetr1 symmetr2 growDiagFinal transposeAlig"]}
{"id": "C165", "title": "A file of alignment operations is a chain of operations", "statement": "thot_alig_op with a file of operations does the operations in order, each on the result of the previous one, ignoring blank lines and unknown operations, and its output does not depend on what the output file contained before.", "quantifier": "any list of operation lines, files, and previous contents of the output file", "why_tests_cant": "The order of lines and the state of the output file are unbounded.", "anchors": ["src/phrase_models/thot_alig_op.cc parseAlignOpsFile"]}
{"id": "C166", "title": "Exhaustive operations, compact output", "statement": "thot_alig_op -e -compact writes one entry for each different sentence pair of the first file (transposed with -gt) with its number of occurrences; its matrix is the result of the operations on the matrix of the first occurrence, each operation being done with all the matrices of that sentence pair in the other file.", "quantifier": "any entries in any order with any repetitions, any list of operation lines", "why_tests_cant": "The container, two growing vocabularies and the orders of both files are unbounded.", "anchors": ["src/phrase_models/AlignmentContainer.cc extractAlignmentsFromGIZAFile join intersect sum symmetr1 symmetr2 growDiagFinal operator<<", "src/phrase_models/VecUnsignedIntSortCriterion.h", "src/phrase_models/thot_alig_op.cc main parseAlignOpsFile"]}
{"id": "C167", "title": "Exhaustive operations, plain output", "statement": "thot_alig_op -e writes one numbered entry for each entry of the first file (transposed with -gt), in order, with the matrix of its sentence pair after the operations.", "quantifier": "any entries, operation lines and both values of -gt", "why_tests_cant": "As C166; the file is read a second time.", "anchors": ["src/phrase_models/AlignmentContainer.cc printNoCompact", "src/phrase_models/thot_alig_op.cc main"]}
{"id": "C168", "title": "Word graph file round trip", "statement": "Printing a well-formed word graph and loading the file gives the printed arcs (not pruned, or only the ones on complete paths) in the same order with their states, words, scores and components as written, the weights, and the final states some live arc enters; loading is defined exactly if every printed arc leaves a state that exists when it is read.", "quantifier": "every consistent word graph whose words can be written, every number format, both printing modes, any previous graph", "why_tests_cant": "a test prints a few graphs; the claim is about all of them, including pruned ones where loading is undefined", "anchors": ["src/error_correction/WordGraph.cc:WordGraph::print", "src/error_correction/WordGraph.cc:WordGraph::load", "src/error_correction/WordGraph.cc:WordGraph::finalStatePruned"]}
{"id": "C169", "title": "A printed word graph keeps its translations", "statement": "The complete paths with some arc of a word graph are in correspondence with those of the graph loaded from its file: same words, and the scores and components that were written.", "quantifier": "every consistent word graph whose file can be loaded, every complete path", "why_tests_cant": "there are exponentially many paths", "anchors": ["src/error_correction/WordGraph.cc:WordGraph::print", "src/error_correction/WordGraph.cc:WordGraph::load"]}
{"id": "C170", "title": "Strings and score components of n-best lists", "statement": "With as many components in every arc as weights, every element of the n-best list has the words of a path separated by blanks, the vector of components at its position is the sum of the components of the arcs of the path, and its score is the score of the initial state plus the weighted sum of that vector.", "quantifier": "every topologically ordered word graph with uniform components, every weight vector and list length", "why_tests_cant": "relation between three outputs over all graphs and paths", "anchors": ["src/error_correction/WordGraph.cc:WordGraph::stringAssociatedToHyp", "src/error_correction/WordGraph.cc:WordGraph::nbSearch", "src/error_correction/WordGraph.cc:WordGraph::obtainNbestList"]}
{"id": "C171", "title": "File with the word graph of each sentence", "statement": "After loading, the path of a sentence is the one of the last line of the file with that sentence, sentences in no line are not found, and a map that is printed and loaded again gives the same paths.", "quantifier": "every file of complete lines, every sentence, every map of non-empty sentences", "why_tests_cant": "all files and sentences", "anchors": ["src/error_correction/WgHandler.cc:WgHandler::load", "src/error_correction/WgHandler.cc:WgHandler::print", "src/error_correction/WgHandler.cc:WgHandler::pathAssociatedToSentence"]}
{"id": "C172", "title": "Factorials and combinations", "statement": "logFactorial(n), logCombmn(m,n) and logNumbPermsOfTwoElems(J,l) are the logarithms of n!, of m over n and of J over l; the GMP versions mp_logCombmn and mp_numbPermsOfTwoElems return those numbers exactly.", "quantifier": "all n, m, J, l (n<=m, l<=J)", "why_tests_cant": "Unbounded arguments; the code has several branches by which of l and J-l is smaller.", "anchors": ["src/nlp_common/MathFuncs.cc", "logFactorial", "logCombmn", "logNumbPermsOfTwoElems", "mp_logCombmn", "mp_numbPermsOfTwoElems"]}
{"id": "C173", "title": "Poisson and geometric distributions", "statement": "For a positive mean the values of poisson over all whole numbers are the Poisson probabilities and add up to 1, and poisson_cdf is their partial sum and below 1; the same for geom with 0<p<1, whose cdf is 1-(1-p)^(n+1).", "quantifier": "all means, all p, all arguments", "why_tests_cant": "The statement is about an infinite sum.", "anchors": ["src/nlp_common/MathFuncs.cc", "poisson", "log_poisson", "poisson_cdf", "geom", "log_geom", "geom_cdf"]}
{"id": "C174", "title": "Triangular distribution", "statement": "triang_cdf(a,b,c,x) is the cumulative function of the triangular distribution: 0 up to a, 1 from b on, not decreasing, with the triangular density as derivative.", "quantifier": "all a<c<b and x", "why_tests_cant": "Real arguments.", "anchors": ["src/nlp_common/MathFuncs.cc", "triang_cdf"]}
{"id": "C175", "title": "Sums and differences in the logarithmic domain", "statement": "lns_sum(x,y) and lns_sumlog of the logarithms return the logarithm of x+y for all numbers that are not negative, zero included (minus infinity); lns_sub and lns_sublog return the logarithm of x-y if y<=x.", "quantifier": "all numbers that are not negative", "why_tests_cant": "Real arguments and infinities.", "anchors": ["src/nlp_common/MathFuncs.cc", "lns_sum", "lns_sumlog", "lns_sub", "lns_sublog"]}
{"id": "C176", "title": "Number of segments: probabilities from a file", "statement": "After loading a segmentation length table, pk_tlen(tlen,k) is defined for all lengths and, for every sentence length with positive counts, is a probability distribution over k proportional to the counts in the file; the phrase model returns it with a floor of 1e-7.", "quantifier": "all files with entries, all lengths", "why_tests_cant": "All files and lengths, including the boundary of the table.", "anchors": ["src/phrase_models/SegLenTable.cc", "pk_tlen", "load_seglentable", "src/phrase_models/_incrPhraseModel.cc"]}
{"id": "C177", "title": "Number of segments: print and load", "statement": "Printing the table and loading the result gives the same probabilities.", "quantifier": "all tables obtained by loading", "why_tests_cant": "Quantifies over all tables.", "anchors": ["src/phrase_models/SegLenTable.cc", "printSegmLengthTable", "load_seglentable", "constantSegmLengthTable"]}
{"id": "C178", "title": "Length of source segments", "statement": "The source segment length model selected by the file is a probability distribution: uniform over the possible ends of the segment, or geometric over the lengths from one word on.", "quantifier": "all positions, sentence lengths and files", "why_tests_cant": "Infinite sum and all positions.", "anchors": ["src/phrase_models/SrcSegmLenTable.cc", "srcSegmLenLgProb", "load"]}
{"id": "C179", "title": "Jump model", "statement": "The probability of a jump is symmetric, decreases with the distance, and the probabilities of all jumps add up to 1, with the parameter read from the file (0.999 by default).", "quantifier": "all parameters strictly between 0 and 1, all offsets", "why_tests_cant": "Infinite sum.", "anchors": ["src/phrase_models/TrgCutsTable.cc", "trgCutsLgProb", "load"]}
{"id": "C180", "title": "Length of target segments", "statement": "The model selected by the file gives probabilities of segment lengths: uniform over the ends that are possible given the earlier segments, Poisson with mean proportional to the source segment length, or geometric in the difference of the lengths.", "quantifier": "all segmentations, sentence lengths, averages and files", "why_tests_cant": "All segmentations; infinite sums.", "anchors": ["src/phrase_models/TrgSegmLenTable.cc", "trgSegmLenLgProb", "load", "readAvgSegmLen"]}
{"id": "C181", "title": "The counts in an n-gram database are those last stored", "statement": "After any history of calls that store or increase counts, close and reopen, or clear an n-gram database, the count of a history, the count of an n-gram, whether an entry is found and the relative frequency of a word after a history are those of a table of n-gram counts in which every call assigns the counts it is given (as they read after being printed). The count of a history should not be affected by storing the count of an n-gram (refuted: they share their entry).", "quantifier": "all histories of calls with n-grams of at most 251 words with indices below 254^3; all number formats whose rounding is idempotent", "why_tests_cant": "needs every history and every pair of n-grams; a collision of two keys is not seen by examples", "anchors": ["src/incr_models/LevelDbNgramTable.cc:addTableEntry", "src/incr_models/LevelDbNgramTable.cc:incrCountsOfEntryLog", "src/incr_models/LevelDbNgramTable.cc:infSrcTrg", "src/incr_models/LevelDbNgramTable.cc:pTrgGivenSrc"]}
{"id": "C182", "title": "The words listed after a history are those with a count", "statement": "For a non-empty history the call that lists the words after it gives exactly the words with a non-negligible count after the history, each once, with the counts of the history and of the n-gram, and succeeds iff there is one; longer n-grams, other histories and the entry of the empty history are never visited.", "quantifier": "all histories of calls, all non-empty histories of words whose last word has a representable successor", "why_tests_cant": "a range scan over encoded keys must be exact for every content of the database", "anchors": ["src/incr_models/LevelDbNgramTable.cc:getEntriesForSource", "src/incr_models/LevelDbNgramTable.cc:vectorToString"]}
{"id": "C183", "title": "Counts and histories of a word over the whole database", "statement": "The count of a word is the sum of the counts of the n-grams of two or more words that end with it; the histories listed for a word are those of such n-grams, each once; the probability of a history given its last word is the ratio of the counts when both are positive and should always be a probability (refuted: -99999 for an unseen n-gram, above 1 for the empty history).", "quantifier": "all histories of calls and all words", "why_tests_cant": "sums over an unbounded database", "anchors": ["src/incr_models/LevelDbNgramTable.cc:cTrg", "src/incr_models/LevelDbNgramTable.cc:getEntriesForTarget", "src/incr_models/LevelDbNgramTable.cc:pSrcGivenTrg"]}
{"id": "C184", "title": "Increments of n-gram counts add up", "statement": "After unit increments on a new database, an n-gram counted at most 999999 times has the number of its increments as count, and relative frequencies after a non-empty history are ratios of those numbers. For every history they should be relative frequencies (refuted: after the empty history always 0; from one million on, increments are lost).", "quantifier": "all sequences of unit increments", "why_tests_cant": "the loss starts after a million increments; the empty history needs all sequences", "anchors": ["src/incr_models/LevelDbNgramTable.cc:incrCountsOfEntryLog", "src/incr_models/LevelDbNgramTable.cc:storeData"]}
{"id": "C185", "title": "Iteration, size, reopening and clearing of an n-gram database", "statement": "Iterating gives every n-gram with a count exactly once with its count and never the entry of the empty history; the size is the number of n-grams; reopening preserves all counts (that of the empty history as printed) and the size; clearing leaves nothing.", "quantifier": "all histories of calls", "why_tests_cant": "must hold for every content of the database, wherever the reserved key falls", "anchors": ["src/incr_models/LevelDbNgramTable.cc:begin", "src/incr_models/LevelDbNgramTable.cc:operator++", "src/incr_models/LevelDbNgramTable.cc:size", "src/incr_models/LevelDbNgramTable.cc:load", "src/incr_models/LevelDbNgramTable.cc:clear"]}
{"id": "C186", "title": "Importing a file of n-grams", "statement": "thot_ngram_to_leveldb numbers the standard words and then the words of the lines in order of appearance, different words getting different numbers, and stores the entries of the lines of at least three fields in order under those numbers; other lines have no effect.", "quantifier": "all files of lines ended with a newline", "why_tests_cant": "numbers are assigned while the entries are stored: a number changing afterwards would need a long file", "anchors": ["src/incr_models/thot_ngram_to_leveldb.cc:process_ttable", "src/incr_models/thot_ngram_to_leveldb.cc:getSymbolId"]}
{"id": "C187", "title": "The vocabulary file of an n-gram database is read back exactly", "statement": "Loading the vocabulary file, whatever the order of its lines, into a new language model gives every word the number used in the database, every number its word, and unknown words the code of the unknown word.", "quantifier": "all vocabularies of words without white space that begin with the standard symbols", "why_tests_cant": "quantifies over all vocabularies and orders", "anchors": ["src/incr_models/vecx_x_incr_enc.h:load", "src/incr_models/thot_ngram_to_leveldb.cc:saveVocabulary"]}
{"id": "C188", "title": "Step-by-step minimisation is the minimisation of the target function", "statement": "Running the step-by-step minimiser on a file with the values obtained so far asks for exactly the point the uninterrupted minimisation of the target function would evaluate next, or returns its result; hence the weight-adjustment script, started anew or resumed after any number of evaluations, ends with the result of that minimisation and a file with the values of all the points.", "quantifier": "all target functions that write one line, configurations, numbers of values already obtained", "why_tests_cant": "the minimiser is restarted from scratch after every evaluation; equivalence must hold for every prefix", "anchors": ["src/downhill_simplex/step_by_step_dhs.c: step_by_step_simplex, get_next_funk, step_by_step_objfunc", "src/downhill_simplex/thot_dhs_step_by_step_min.cc: main", "utils/downhill_simplex/thot_dhs_min.sh"]}
{"id": "C189", "title": "The minimisation ends and its number of evaluations is bounded", "statement": "For every target function and starting point the minimisation ends after at least n+2 and at most n+2+5*MAX_IT evaluations (n free variables).", "quantifier": "all functions, dimensions, tolerances, starting points", "why_tests_cant": "a bound over all functions", "anchors": ["src/downhill_simplex/step_by_step_dhs.c: step_by_step_simplex, get_next_funk, step_by_step_objfunc"]}
{"id": "C190", "title": "The minimisation returns the best point it has evaluated", "statement": "The value returned is the value of the target function at the point returned, and no point evaluated during the minimisation (the starting point among them) has a smaller value.", "quantifier": "all functions, dimensions, tolerances, starting points, iteration limits", "why_tests_cant": "the claim is about every run of an adaptive search, including the shrink step that keeps stale values", "anchors": ["src/downhill_simplex/step_by_step_dhs.c: step_by_step_simplex, get_next_funk, step_by_step_objfunc"]}
{"id": "C191", "title": "Values recorded for the simplex are values of the target function", "statement": "After each iteration the value recorded for each vertex (used for choosing moves and for the convergence test) is the value of the target function at that vertex.", "quantifier": "all functions, dimensions, simplexes", "why_tests_cant": "requires reasoning about all iterations; false after a shrink in more than two dimensions", "anchors": ["src/downhill_simplex/step_by_step_dhs.c: step_by_step_simplex, get_next_funk, step_by_step_objfunc"]}
{"id": "C192", "title": "Fixed and free variables keep their places", "statement": "Every line of values printed by the minimiser (request or result) has one number per variable: the given one for a fixed variable and the coordinates, in order, for the free ones (those written -0); the first request is the vector of initial values or equal free values that sum up to 1.", "quantifier": "all command lines, functions", "why_tests_cant": "for all vectors of variables and all runs", "anchors": ["src/downhill_simplex/thot_dhs_step_by_step_min.cc: main", "src/downhill_simplex/step_by_step_dhs.c: step_by_step_simplex, get_next_funk, step_by_step_objfunc"]}
{"id": "C193", "title": "Each iteration is a step of the Nelder-Mead method", "statement": "From a simplex, one iteration evaluates the reflection of the worst vertex through the mean of the others, then, depending on how it ranks against the best, second worst and worst values, accepts it, expands, contracts (outside or inside) or shrinks all vertices half way towards the best one.", "quantifier": "all functions, dimensions, simplexes", "why_tests_cant": "for every function and simplex; wrong with ties between the worst vertices", "anchors": ["src/downhill_simplex/step_by_step_dhs.c: step_by_step_simplex"]}
{"id": "C194", "title": "Schedule of incremental training", "statement": "When the number of epochs E divides the number R of samples of the window, incremental on-line training uses each sentence pair exactly E times: in the call that gives it and in the calls k*R/E later (k<E), and each call trains with the pair it is given. (For E not dividing R the pair given is not used by its own call.)", "quantifier": "all E, R >= 1 and all sequences of sentence pairs", "why_tests_cant": "The schedule is a property of unbounded sequences of calls.", "anchors": ["src/stack_dec/StdFeatureHandler.cc: trainAligModel", "src/stack_dec/PhrLocalSwLiTm.cc: incrTrainFeatsSentPair"]}
{"id": "C195", "title": "Phrase counts of incremental training", "statement": "After any sequence of calls of incremental training (E dividing R), the count of every phrase pair is its initial count plus the number of times it occurs in the phrase pairs extracted last from each sample: earlier extractions of a sample leave no trace. (For E not dividing R statistics are discarded too early and pairs are counted twice.)", "quantifier": "all E, R, all sequences of sentence pairs, all alignment models", "why_tests_cant": "Requires an invariant over the history of subtractions and discards.", "anchors": ["src/stack_dec/StdFeatureHandler.cc: trainAligModel, addNewTransOpts", "src/stack_dec/PhrLocalSwLiTm.cc: addNewTransOpts"]}
{"id": "C196", "title": "Mini-batches partition the input", "statement": "With a mini-batch size m>=1, any sequence of sentence pairs is processed in consecutive blocks of exactly m pairs, each pair being added once, each training pass covering exactly the samples of its block, with the learning rate of the number of the block; the remaining N mod m pairs are only stored. A size below 1 divides by zero.", "quantifier": "all block sizes, iterations and sequences", "why_tests_cant": "Sample numbers depend on the whole history.", "anchors": ["src/stack_dec/PhrLocalSwLiTm.cc: minibatchTrainFeatsSentPair"]}
{"id": "C197", "title": "Complete retraining uses all the pairs seen", "statement": "With retraining every m pairs, retraining number k clears the models and trains them with exactly the first k*m pairs; all the pairs remain stored.", "quantifier": "all block sizes, iterations and sequences", "why_tests_cant": "Depends on the whole history of calls.", "anchors": ["src/stack_dec/PhrLocalSwLiTm.cc: batchRetrainFeatsSentPair"]}
{"id": "C198", "title": "A cleared model is trained as a fresh one", "statement": "After clear, mini-batch training proceeds as with a new model, provided that no sentence was pending. (With pending sentences the stored system translations survive and are taken for those of later sentences when the learning rate is calculated.)", "quantifier": "all histories before and after the call", "why_tests_cant": "Needs the comparison of all pairs of histories.", "anchors": ["src/stack_dec/PhrLocalSwLiTm.cc: clear, minibatchTrainFeatsSentPair, werBasedLearningRate"]}
{"id": "C199", "title": "Learning rates", "statement": "Every learning rate policy gives a value strictly between 0 and 1; those of Liang and the program's own strictly decrease with the step, their sum diverges and the sum of their squares converges; the error-based one is the word error rate minus 0.2 limited to [0.001,0.999].", "quantifier": "all steps, error counts and lengths", "why_tests_cant": "Convergence conditions are about infinite sequences.", "anchors": ["src/stack_dec/PhrLocalSwLiTm.cc: calculateNewLearningRate, werBasedLearningRate"]}
{"id": "C200", "title": "Adjustment of interpolation weights", "statement": "The adjustment of the interpolation weights of the phrase models ends; if it fails the weights are the initial ones; if it succeeds and the initial weights were in [0,1), the new ones come from a point in [0,1)x[0,1) and the perplexity (as printed) is not above the initial one.", "quantifier": "all perplexity functions, conversions, tolerances and initial weights", "why_tests_cant": "The minimiser's behaviour depends on an arbitrary objective function.", "anchors": ["src/stack_dec/WeightUpdateUtils.cc: updatePmLinInterpWeights, linInterpWeightsDhsEval", "src/stack_dec/PhrLocalSwLiTm.cc: updateLinInterpWeights, new_dhs_eval"]}
{"id": "C201", "title": "Score of a hypothesis with sentence length", "statement": "In the translation model with sentence length scores, the score of a hypothesis is the sum of the values of word penalty, language model, two segment lengths, jumps and two phrase scores for its phrases plus the score of the length (that of the complete translation, or of the lengths still possible); it does not depend on how the extensions were grouped, and the components of an extension add up to the difference of scores.", "quantifier": "all score functions, source sentences of one word or more and sequences of extensions", "why_tests_cant": "The incremental scores must telescope for every history of extensions.", "anchors": ["src/stack_dec/PhrLocalSwLiTm.cc: incrScore, nullHypothesis"]}
{"id": "C202", "title": "Lengths possible for the untranslated words", "statement": "The range of lengths computed for the untranslated words contains the length of every translation of them by phrases, its lower limit is attained, the upper one too, and a gap that cannot be translated has the range 0..0.", "quantifier": "all sentences, translation options and gaps", "why_tests_cant": "Dynamic programming over all segmentations.", "anchors": ["src/stack_dec/_phrSwTransModel.h: initLenRangeForGapsVec, obtainLengthRangeForGaps"]}
{"id": "C203", "title": "Sums of length probabilities", "statement": "Queries of the probability of a range of lengths, answered with stored partial sums, always give the sum of the probabilities of the range; the length score of an incomplete hypothesis is never below that of a translation that completes it, in every mode (free, with reference, with prefix).", "quantifier": "all sequences of queries, all hypotheses and completions", "why_tests_cant": "Depends on the order of the queries and on all completions.", "anchors": ["src/stack_dec/_phrSwTransModel.h: sumSentLenProb, sumSentLenScoreRange, sentLenScoreForPartialHyp"]}
{"id": "C204", "title": "Interpolated phrase scores", "statement": "With an interpolation weight below 1, the score of a phrase pair is the weight times the logarithm of the linear interpolation of the probabilities of the phrase and word models (contributions of the phrase model up to 1e-10 count as exp(-9999999)), always a finite number, monotone in both; stored values are always those of the current models as long as a translation starts after each training.", "quantifier": "all probabilities, weights, histories of queries, trainings and translations", "why_tests_cant": "Ranges over all real probabilities and all histories.", "anchors": ["src/stack_dec/PhrLocalSwLiTm.cc: regularSmoothedPhrScore_s_t_, regularSmoothedPhrScore_t_s_", "src/stack_dec/DirectPhraseModelFeat.h: directPhrTransUnweightedScore", "src/stack_dec/_phrSwTransModel.h: swLgProb, invSwLgProb, clearTempVars"]}
{"id": "C205", "title": "Setting log-linear weights", "statement": "Setting weights from a list gives each weight of the list its closest value at a distance of at least 1e-6 from zero with the same sign, keeps the weights beyond the list and ignores values beyond the eighth; reading the weights and setting them again changes nothing.", "quantifier": "all lists of weights and all previous weights", "why_tests_cant": "All real weights and list lengths.", "anchors": ["src/stack_dec/PhrLocalSwLiTm.cc: setWeights, getWeights", "src/stack_dec/_smtModel.h: smoothLlWeight"]}
{"id": "C206", "title": "Names of model files", "statement": "A path is its directory (empty or ending in a slash) followed by a name without slashes; absolute names of model files are kept, relative ones are taken from the directory of the descriptor that mentions them.", "quantifier": "all paths", "why_tests_cant": "All strings.", "anchors": ["src/nlp_common/ModelDescriptorUtils.cc: extractDirName, absolutizeModelFileName"]}
{"id": "C207", "title": "Entries of a model descriptor", "statement": "Each line of a descriptor that has an initialisation, a file and a status before a possible comment gives exactly that entry (with the library directory in place of its variable); other lines and comments give none; a printed descriptor is read back with the same entries.", "quantifier": "all descriptor files and lists of entries", "why_tests_cant": "All texts.", "anchors": ["src/nlp_common/ModelDescriptorUtils.cc: extractModelEntryInfo, printModelDescriptor, fileIsDescriptor"]}
{"id": "C208", "title": "Main model of a descriptor", "statement": "The main file reported for a descriptor is that of its first entry with status main, or empty if there is none; files that are not descriptors have none.", "quantifier": "all files", "why_tests_cant": "All texts.", "anchors": ["src/nlp_common/ModelDescriptorUtils.cc: fileIsDescriptor(fileName,mainFileName)"]}
{"id": "C209", "title": "Remote requests act like direct calls of the decoder", "statement": "For every sequence of requests made by clients one after another (each on its own connection, any users, any mixture of request kinds, any byte orders of the hosts), every client gets exactly the result the decoder gives to that call at that point (exception if the decoder reports an error), and the decoder gets exactly the clients' calls with their user identifiers and arguments in order, each user's parameters being initialised once, right before its first request.", "quantifier": "all decoders, all sequences of requests, users, argument strings, byte orders and deliveries of the network", "why_tests_cant": "the request sequences, arguments and byte-level deliveries are unbounded; the protocol is spread over two programs", "anchors": ["src/stack_dec/ThotDecoderClient.cc: all requests", "src/stack_dec/thot_server.cc: start_server, init_user_pars_if_required, process_request_switch", "src/stack_dec/client_server_defs.h"]}
{"id": "C210", "title": "No request runs for an uninitialised user", "statement": "Whatever bytes arrive on any number of connections and in whatever pieces, the server asks the decoder to initialise each user at most once and every call made for a user is preceded by a (successful) initialisation of that user.", "quantifier": "all byte streams on all sequences of connections, all decoders", "why_tests_cant": "arbitrary (also malformed) client input and arbitrary failures of the decoder", "anchors": ["src/stack_dec/ThotDecoderClient.cc: all requests", "src/stack_dec/thot_server.cc: start_server, init_user_pars_if_required, process_request_switch", "src/stack_dec/client_server_defs.h"]}
{"id": "C211", "title": "Requests on one connection; end of the server", "statement": "All the requests a client makes on one connection are performed and answered; the request to end the server is acknowledged, earlier requests are served, later ones refused and never reach the decoder.", "quantifier": "all request sequences", "why_tests_cant": "unbounded sequences of requests", "anchors": ["src/stack_dec/ThotDecoderClient.cc: all requests", "src/stack_dec/thot_server.cc: start_server, init_user_pars_if_required, process_request_switch", "src/stack_dec/client_server_defs.h"]}
{"id": "C212", "title": "Constraints given in JSON are placed where their phrases occur", "statement": "For every JSON document with a sentence and a list of (original, translation) tags, the sentence used for translation is the given one and the constraints are those of the longest run of leading tags (ignoring tags with no word on one side) whose originals occur in the sentence one after another without overlapping, each one at its first occurrence after the previous one, with its translation.", "quantifier": "all documents: all sentences, all lists of tags", "why_tests_cant": "arbitrary repetitions and overlaps of phrases in arbitrary sentences", "anchors": ["src/stack_dec/JsonTranslationMetadata.h: obtainTransConstraints, addTranslations, isPhraseInSentence"]}
{"id": "C213", "title": "Reading constraints in JSON never fails", "statement": "Reading the constraints throws no exception and reads nothing out of bounds, whatever the text; a text that is not a JSON object is the sentence itself, without constraints.", "quantifier": "all texts and JSON values", "why_tests_cant": "all shapes of JSON values", "anchors": ["src/stack_dec/JsonTranslationMetadata.h: obtainTransConstraints, addTranslations, isPhraseInSentence"]}
{"id": "C214", "title": "thot_check_constraints gives the right verdict for each translation", "statement": "For every list of translations with their phrase alignments the tool prints, in order, that the constraints are satisfied exactly for those whose alignment honours every constraint, and it reads nothing out of bounds.", "quantifier": "all constraints, all lists of translations and alignments", "why_tests_cant": "unbounded files and alignments", "anchors": ["src/stack_dec/thot_check_constraints.cc: check_constraints, extract_align_info"]}
{"id": "C215", "title": "Run-time dictionary feature reflects its history", "statement": "After any sequence of addTransOption and clearDict calls on an OnTheFlyDictFeat, scorePhrasePairUnweighted and getTransOptInfo return the score and information of the last addition of the pair since the last clearing (smoothing score 0, empty information and found=false when there is none) and obtainTransOptions returns exactly the targets added for the phrase since the last clearing, each once, in increasing order.", "quantifier": "every history of additions and clearings, every query", "why_tests_cant": "a test exercises one history of additions", "anchors": ["src/stack_dec/OnTheFlyDictFeat.h: addTransOption, clearDict, scorePhrasePairUnweighted, getTransOptInfo, obtainTransOptions"]}
{"id": "C216", "title": "Dictionary file loaded by DictFeat", "statement": "A dictionary file defines the score of a pair as that of its last line `source ||| target ||| score` and the options of a phrase as the targets of its lines; lines of another form have no effect. (False of the code for files with such lines: the error returned for them is ignored and an option with an uninitialised score is inserted.)", "quantifier": "every dictionary file, every query", "why_tests_cant": "a test loads one file, typically well formed", "anchors": ["src/stack_dec/DictFeat.h: load, extractEntryInfo, insertEntry, scorePhrasePairUnweighted, obtainTransOptions"]}
{"id": "C217", "title": "Dictionary database built by thot_dict_to_leveldb", "statement": "The LevelDB dictionary built from a dictionary file answers as the entries of the file: same options in the same order as DictFeat, the score of the last entry of a pair up to printing and reading it, and a size equal to the number of different pairs; malformed lines are skipped. (False for words containing tabs or control characters.)", "quantifier": "every dictionary file, every query", "why_tests_cant": "a test compares a few pairs of one dictionary", "anchors": ["src/stack_dec/LevelDbDict.cc: addDictEntry, getScore, getTransOptsForSource, size", "src/stack_dec/LevelDbDictFeat.h", "src/stack_dec/thot_dict_to_leveldb.cc: process_ttable, extractEntryInfo"]}
{"id": "C218", "title": "Option readers", "statement": "The functions of options.cc return the argument after the first occurrence of the label that is not the last argument (readSTLstring and the readers of one value), whether a flag is present, the two arguments after a label, and the arguments after a label up to the next option; an option is a dash followed by a character that is not a digit. A number reader reports success only if a number was read. (The last part is false of the code: success is returned for text that is not a number and the variable keeps its value.)", "quantifier": "every argument list, every label", "why_tests_cant": "tests use a few command lines", "anchors": ["src/nlp_common/options.cc: readSTLstring, readInt, readFloat, readOption, readTwoSTLstrings, readStringSeq, readFloatSeq, isOption"]}
{"id": "C219", "title": "Arguments from a configuration file", "statement": "extractParsFromFile returns the fields, in order, of the lines whose first field does not start with the comment string; it fails exactly when the file cannot be opened.", "quantifier": "every file, every comment string", "why_tests_cant": "a test reads one configuration file", "anchors": ["src/nlp_common/options.cc: extractParsFromFile"]}
{"id": "C220", "title": "Precedence of parameters of thot_ms_dec and thot_ms_alig", "statement": "Every parameter is that of the command line, else that of the configuration file given with -c, else its default. (False of the code for the verbosity, always taken from the command line, and for -wgp, ignored unless -wg is given in the same place.)", "quantifier": "every command line, every configuration file", "why_tests_cant": "tests use one combination of options", "anchors": ["src/stack_dec/thot_ms_dec.cc: takeParameters, takeParametersGivenArgcArgv", "src/stack_dec/thot_ms_alig.cc: takeParameters, takeParametersGivenArgcArgv"]}
{"id": "C221", "title": "Configuration file of ThotDecoder", "statement": "The decoder gives every option the value set by the file and the flag -be if present, as the tools that read the same file. (False of the code for options set twice: the decoder takes the last value, the tools take the first one, and the decoder concatenates repeated sequences of weights.)", "quantifier": "every configuration file of option lines, comments and blank lines", "why_tests_cant": "a test initialises the decoder with one file", "anchors": ["src/stack_dec/ThotDecoder.cc: initUsingCfgFile"]}
{"id": "C222", "title": "LevelDB lexical table reflects the history of its changes", "statement": "After any sequence of setLexNumDen, set denominators and set numerators/denominators calls on an IncrLexLevelDbTable, the numerator of every pair and the denominator of every source word are the last ones set ((0, not found) if never set), and the translations returned for a target word are exactly the source words with a numerator for it.", "quantifier": "all histories of changes, all 32-bit word indices and values", "why_tests_cant": "histories and key spaces are unbounded; keys of different kinds share one byte-ordered key space", "anchors": ["src/sw_models/IncrLexLevelDbTable.cc", "IncrLexLevelDbTable::getTransForTarget", "IncrLexLevelDbTable::setLexNumDen"]}
{"id": "C223", "title": "Printing and loading a LevelDB lexical table", "statement": "Printing a LevelDB lexical table and loading it from the same prefix gives a table with the same numerators and denominators; loading a binary file sets its records in order; the conversion tool writes the table of the binary file.", "quantifier": "all histories before printing, all disks and prefixes", "why_tests_cant": "depends on what is on disk and on all contents of the table", "anchors": ["src/sw_models/IncrLexLevelDbTable.cc", "IncrLexLevelDbTable::load", "IncrLexLevelDbTable::print", "src/sw_models/thot_lextable_to_leveldb.cc"]}
{"id": "C224", "title": "Databases of LevelDB phrase models on disk", "statement": "Loading and clearing LevelDB phrase model objects leave the databases that exist on disk as they are; changes made through a model are on disk when they return and are seen by an object that loads the same prefix later; databases that an object does not name are never touched.", "quantifier": "all disks, all sequences of loads, clears and changes, all contents", "why_tests_cant": "quantifies over all histories of an object and all databases on the disk", "anchors": ["src/phrase_models/LevelDbPhraseTable.cc", "src/phrase_models/LevelDbPhraseModel.cc", "LevelDbPhraseModel::load_given_prefix", "LevelDbPhraseTable::clear", "src/phrase_models/LevelDbPhraseTable.cc:init"]}
{"id": "C225", "title": "thot_ttable_to_leveldb writes the counts of the table", "statement": "For every translation table of word indices, the database written by thot_ttable_to_leveldb has, for every source phrase, target phrase and pair, the sum of the joint counts of the entries of the table with it, and the entries of a target phrase are the source phrases with nonzero counts; lines that are not entries are skipped.", "quantifier": "all tables, all phrases", "why_tests_cant": "ranges over all tables and all phrases; addition and rounding over unbounded sequences", "anchors": ["src/phrase_models/thot_ttable_to_leveldb.cc", "extractEntryInfo", "process_ttable"]}
{"id": "C226", "title": "Berkeley DB phrase table reflects the history of its changes", "statement": "After any sequence of incrCountsOfEntry and enableFastSearch calls on a FastBdbPhraseTable, the counts of phrases and pairs are the sums of the counts added, and getEntriesForTarget returns, in order and each once, exactly the source phrases added with the target phrase, with the target count and the joint count.", "quantifier": "all histories, all phrases", "why_tests_cant": "histories and phrases are unbounded; keys are decoded by a user-defined comparison function and a buffer that is reused between reads", "anchors": ["src/phrase_models/FastBdbPhraseTable.cc", "src/phrase_models/FastBdbPhraseTable.h", "FastBdbPhraseTable::getEntriesForTarget", "static_phr_dict_cmp_func"]}
{"id": "C227", "title": "Fast search of the Berkeley DB phrase table is invisible", "statement": "Enabling fast search on a FastBdbPhraseTable at any point changes no probability and no count; it is disabled by every addition.", "quantifier": "all histories of additions and enablings, all pairs of phrases", "why_tests_cant": "the fast path reads a cached count that must be right after every interleaving of additions and enablings", "anchors": ["src/phrase_models/FastBdbPhraseTable.cc", "FastBdbPhraseTable::enableFastSearch", "FastBdbPhraseTable::pTrgGivenSrc"]}
{"id": "C228", "title": "thot_ttable_to_fbdb writes the counts of the table", "statement": "The database written by thot_ttable_to_fbdb depends on the input table only: its counts are the sums of the joint counts of the entries, and fast search is enabled.", "quantifier": "all tables, all databases that may exist at the output prefix", "why_tests_cant": "ranges over all tables and all previous states of the disk", "anchors": ["src/phrase_models/thot_ttable_to_fbdb.cc", "FastBdbPhraseTable::init"]}
{"id": "C229", "title": "The HMM alignment table returns the last counts set and survives printing", "statement": "After any history of calls of IncrHmmAligTable, the numerator of (previous position, source length, position) and the denominator of (previous position, source length) are the last ones set since the table was cleared, and not found otherwise. Printing the table in binary form and loading the file, even with one to three bytes appended, restores all numerators and the denominators of the keys with a numerator; a missing file is an error that leaves an empty table; a file that ends within a record makes the loader use values that were not read.", "quantifier": "every sequence of calls, every key and position, every file length", "why_tests_cant": "needs arbitrary histories and byte-exact files", "anchors": ["src/sw_models/IncrHmmAligTable.cc: setAligNumer, getAligNumer, setAligDenom, getAligDenom, loadBin, printBin"]}
{"id": "C230", "title": "The IBM 2 alignment table returns the last counts set and survives printing", "statement": "After any history of calls of IncrIbm2AligTable, the numerator of (target position, source length, target length, source position) and the denominator of its first three components are the last ones set since the table was cleared, and not found otherwise. Whatever the order of the hash tables, printing the table in binary form and loading the file restores all numerators and the denominators of the keys with a numerator.", "quantifier": "every sequence of calls, every key and position, every iteration order of the hash tables", "why_tests_cant": "needs arbitrary histories and hash orders", "anchors": ["src/sw_models/IncrIbm2AligTable.cc: setAligNumer, getAligNumer, setAligDenom, getAligDenom, loadBin, printBin"]}
{"id": "C231", "title": "The sorting tools for binary tables write a sorted permutation of the records", "statement": "For every file of complete records thot_sort_bin_ilextable, thot_sort_bin_iibm2atable and thot_sort_bin_ihmmatable write a file with exactly the same records (byte by byte) in lexicographic order of the fields of the key; the comparison is a strict weak order, so the sort is well defined; with distinct keys the output is unique. thot_gen_bin_lex_filter_info writes the pairs of words of the table in order. A file that ends within a record gives no defined output.", "quantifier": "every file, every number of records", "why_tests_cant": "quantifies over all files", "anchors": ["src/sw_models/thot_sort_bin_ilextable.cc: main, SortBySrcAndTrg", "src/sw_models/thot_sort_bin_iibm2atable.cc", "src/sw_models/thot_sort_bin_ihmmatable.cc", "src/sw_models/thot_gen_bin_lex_filter_info.cc"]}
{"id": "C232", "title": "Distributed training: sorted, merged and filtered tables give each process the total counts of its own pairs", "statement": "If k processes fill lexical tables by any calls and print them, and the files are sorted, merged and filtered with the pairs of words of one of the processes, then, whatever the choices of the tools, the table loaded by that process has exactly its own pairs, each with the sum of its numerators in all the processes, and each of its sources has as denominator the sum of the denominators of the processes that have some pair with that source.", "quantifier": "every number of processes, all histories of calls, all runs of the sorting and merging tools", "why_tests_cant": "quantifies over all histories of several programs in a pipeline", "anchors": ["utils/sw_models/thot_gen_batch_sw_model_mr.sh: sort_counts, merge_lex_counts_bin, generate_filter_info_bin, filter_lex_table_bin", "src/sw_models/thot_sort_bin_ilextable.cc", "src/sw_models/thot_merge_bin_ilextable.cc", "src/sw_models/thot_filter_bin_ilextable.cc", "src/sw_models/thot_gen_bin_lex_filter_info.cc"]}
{"id": "C233", "title": "The matrix of expected values is a first-in first-out window of sentence pairs", "statement": "After any sequence of operations (storing a value for a position of a sentence pair, preparing the entry of a sentence pair, resetting, clearing, setting the maximum size) the value read for a position is the last one stored for it if the sentence pair is among the at most R sentence pairs that entered last in the window, and the mark of no value otherwise; with a maximum size R no more than R entries are kept, with size 0 nothing is stored, without maximum size nothing is forgotten; no access is out of bounds.", "quantifier": "every sequence of operations, every sizes of sentences, every maximum size, every values and every position read", "why_tests_cant": "Which sentence pair an entry belongs to depends on the whole history: the entries are reused in circular order and two vectors (from sentence pairs to entries and back) have to stay inverse of each other while they grow", "anchors": ["src/sw_models/anjiMatrix.cc: anjiMatrix::init_nth_entry, map_n_in_matrix, n_is_mapped_in_matrix, set_fast, get, get_invp, reset_entries, set_maxnsize, clear", "src/sw_models/IncrIbm1AligModel.cc: calc_anji"]}
{"id": "C234", "title": "Printing and loading the matrix of expected values", "statement": "A matrix printed and then loaded in another matrix gives a matrix that behaves as the first one, now and after any other operations: same maximum size, same values, same sentence pairs forgotten later. False if the matrix that loads has a maximum size (with size 0 every value is lost without error) or if a file .msinfo of an earlier restricted matrix is left with the same prefix (it is used for an unrestricted matrix).", "quantifier": "every history of the printed matrix, every matrix without maximum size that loads, every later sequence of operations", "why_tests_cant": "Equality after any continuation depends on the circular pointer and both mappings being restored from text, for windows of any size", "anchors": ["src/sw_models/anjiMatrix.cc: anjiMatrix::load, load_anji_values, load_maxnsize_data, print, print_anji_values, print_maxnsize_data, set"]}
{"id": "C235", "title": "The word error rate is the total minimal edit distance over the number of reference words", "statement": "thot_calc_wer computes for each pair of lines the smallest number of insertions, deletions and substitutions of words that change one into the other, whatever the lengths; the rate printed is the sum of these numbers over the pairs divided by the number of words of the references read. With no reference words (and, in verbose mode, with one empty reference) it fails with a division by zero instead of printing a rate.", "quantifier": "all pairs of sentences and all pairs of files, with and without verbose mode", "why_tests_cant": "minimality over all edit scripts for all sentence pairs is not something a sample of sentences can establish", "anchors": ["utils/stack_dec/thot_calc_wer.py:levenshtein", "utils/stack_dec/thot_calc_wer.py:main"]}
{"id": "C236", "title": "Corpus cleaning keeps exactly the line pairs with allowed and typical lengths", "statement": "thot_clean_corpus_ln prints, in increasing order, exactly the numbers of the line pairs whose two lengths are between the minimum and the maximum and whose difference of lengths is within d standard deviations of the mean, both taken over the lines with the same source length when there are at least ten of them and over the whole corpus otherwise; so at most 1/d^2 of each such group (of the corpus for the rare lengths) is dropped because of the difference. An empty corpus is an error.", "quantifier": "all corpora and all values of the minimum, the maximum and the number of deviations", "why_tests_cant": "the claim relates each line to statistics of the whole corpus, for every corpus", "anchors": ["utils/smt_preproc/thot_clean_corpus_ln.py:compute_mean_stddev", "utils/smt_preproc/thot_clean_corpus_ln.py:compute_mean_stddev_per_length", "utils/smt_preproc/thot_clean_corpus_ln.py:main"]}
{"id": "C237", "title": "Extracting the kept lines from both sides gives parallel files", "statement": "Extracting with thot_extract_sents_by_ln the line numbers printed by the cleaning tool from the source and the target file gives two files of the same length whose k-th lines are the two sides of the k-th kept pair, also when one of the files has more lines than the other; the extraction in reverse mode gives exactly the remaining lines, and both keep the order of the file.", "quantifier": "all pairs of files, all parameters of the cleaning tool, all lists of numbers", "why_tests_cant": "the alignment of two output files for every corpus is a universally quantified statement about two runs of two tools", "anchors": ["utils/nlp_common/thot_extract_sents_by_ln.sh", "utils/smt_preproc/thot_clean_corpus_ln.py:main"]}
{"id": "C238", "title": "Merging the phrase tables of the chunks adds up the counts", "statement": "Training a phrase model in chunks and merging the tables of the chunks writes exactly one line for each pair of phrases that occurs in some chunk and whose source phrase has a total count above the cutoff; the two counts of the line are the sum over the chunks of the count of the source phrase (taken once per chunk) and the sum over the chunks of the count of the pair, whatever order sort gives to equal lines.", "quantifier": "all lists of well-formed chunk tables with any number of chunks, all cutoffs, all orders sort may give", "why_tests_cant": "one entry per pair and the sums must be right for every distribution of the pairs over chunks", "anchors": ["utils/phrase_models/thot_gen_phr_model_mr.sh:sort_counts", "utils/phrase_models/thot_merge_counts.sh:print_counts", "utils/phrase_models/thot_cut_ttable.sh"]}
{"id": "C239", "title": "Flipping a phrase table is an involution", "statement": "thot_flip_phr exchanges the two phrases of every line, keeps whatever follows the second separator and the order of the lines; flipping twice gives the table back.", "quantifier": "all tables with phrases of any length and any number of trailing fields", "why_tests_cant": "the claim is about every line of every table", "anchors": ["utils/phrase_models/thot_flip_phr.sh"]}
{"id": "C240", "title": "Sorting a phrase table groups source phrases and orders their translations by count", "statement": "thot_sort_ttable writes a permutation of the lines of the table in which the lines with the same first phrase are consecutive and ordered by decreasing count of the pair (up to the 20 decimals of the inverse counts; exactly for integer counts below 10^10).", "quantifier": "all tables, all positive counts, all orders sort may give to equal lines", "why_tests_cant": "the order relates every two lines of every table and depends on a comparison of texts", "anchors": ["utils/phrase_models/thot_sort_ttable.sh:put_st_lengths", "utils/phrase_models/thot_sort_ttable.sh:remove_st_lengths"]}
{"id": "C241", "title": "The n best source phrases of every target phrase are kept", "statement": "thot_get_nbest_for_trg writes for every target phrase of the table exactly min(n, number of its entries) of its entries, those with the largest counts, unchanged, and nothing else.", "quantifier": "all tables, all numbers of options, all orders sort may give", "why_tests_cant": "selection of the best entries of each group for every table", "anchors": ["utils/phrase_models/thot_get_nbest_for_trg.sh:filter_nbest", "utils/phrase_models/thot_sort_ttable.sh", "utils/phrase_models/thot_flip_phr.sh"]}
{"id": "C242", "title": "The remaining mass of each target phrase is written with -p", "statement": "With -p, thot_get_nbest_for_trg also writes after the entries kept for each target phrase one line with an unused word and the sum of the counts of the entries dropped, if it is positive.", "quantifier": "all tables and numbers of options", "why_tests_cant": "it must hold for every block of every table, also the last one", "anchors": ["utils/phrase_models/thot_get_nbest_for_trg.sh:filter_nbest"]}
{"id": "C243", "title": "A fraction as number of options is a threshold", "statement": "If the number of options given to thot_get_nbest_for_trg is between 0 and 1, the entries whose count is more than that fraction of the largest count of their target phrase are written (as the help of the script says).", "quantifier": "all tables and fractions", "why_tests_cant": "a statement on all tables", "anchors": ["utils/phrase_models/thot_get_nbest_for_trg.sh"]}
{"id": "C244", "title": "An IMT session uses exactly the words rejected for the present text", "statement": "Every setPrefix or rejectSuffix of an IMT session asks the decoder to complete the text of the call with exactly the words rejected by the run of rejectSuffix calls for the same text that ends with the call; setPrefix and any change of the text forget the words rejected before.", "quantifier": "all sessions: any sequence of setPrefix and rejectSuffix calls, any engine", "why_tests_cant": "the set depends on the whole history of calls", "anchors": ["src/stack_dec/ThotImtSession.cc:setPrefix", "src/stack_dec/ThotImtSession.cc:rejectSuffix", "src/stack_dec/ThotImtSession.cc:setPrefixAux"]}
{"id": "C245", "title": "Suggestions of an IMT session begin with the words accepted by the user", "statement": "The words returned by setPrefix and rejectSuffix begin with the words of the prefix given in the call; only the last one, if it is marked as incomplete, may be extended.", "quantifier": "all sessions, calls and engines that complete the text they get", "why_tests_cant": "must hold for every history, prefix and engine", "anchors": ["src/stack_dec/ThotImtSession.cc:setPrefix", "src/stack_dec/ThotImtSession.cc:rejectSuffix", "src/stack_dec/ThotDecoder.cc:setPref"]}
{"id": "C246", "title": "Rejected words are not proposed again in the session", "statement": "After rejectSuffix, the word proposed at the place of the rejected one is different from all the words rejected by the preceding calls for the same prefix, and begins with the part of it that the user accepted, for every engine that respects the set of rejected words; the word-graph processor is such an engine.", "quantifier": "all sessions and engines, all prefixes with at least one complete word", "why_tests_cant": "a property of every history of rejections through three layers (session, decoder, word-graph processor)", "anchors": ["src/stack_dec/ThotImtSession.cc:rejectSuffix", "src/stack_dec/ThotDecoder.cc:addStrToPrefAux", "src/error_correction/WgProcessorForAnlp.h:correct"]}
{"id": "C247", "title": "Word penalty is a probability of the length and its partial sums are consistent", "statement": "The word penalty of a translation of n words is the logarithm of a probability distribution over lengths that decays by a constant factor per word; the score used for incomplete hypotheses is, up to one constant that is the same for every length, the logarithm of the probability of at least n words; and the contributions of the phrases of a complete hypothesis add up to the word penalty of its length whatever the segmentation.", "quantifier": "every length and every list of phrase lengths", "why_tests_cant": "an infinite sum over all lengths and all segmentations, over the reals", "anchors": ["src/incr_models/WordPenaltyModel.cc:wordPenaltyScore", "src/incr_models/WordPenaltyModel.cc:sumWordPenaltyScore", "src/incr_models/WordPenaltyModel.h"]}
{"id": "C248", "title": "N-gram counting lists every n-gram once with exact counts", "statement": "For every corpus, every order and every order in which awk visits its array, thot_get_ngram_counts writes exactly one line per n-gram of 1 to n words that occurs in the sentences delimited by <s> and </s>, with the number of occurrences of its history (the total number of words, symbols included, for single words) and its own number of occurrences; nothing else is written.", "quantifier": "all nonempty corpora, orders and array visiting orders", "why_tests_cant": "any number of sentences, any words and any unspecified iteration order", "anchors": ["utils/incr_models/thot_get_ngram_counts.sh"]}
{"id": "C249", "title": "Map-reduce n-gram counting equals direct counting", "statement": "For every fragment size, every array visiting order in every fragment and every result of sort, thot_get_ngram_counts_mr writes the lines that thot_get_ngram_counts writes for the whole corpus, up to their order: splitting, sorting and thot_merge_ngram_counts lose, duplicate or miscount nothing.", "quantifier": "all nonempty corpora, orders, fragment sizes and sort results", "why_tests_cant": "arbitrary ways of cutting the corpus and of ordering intermediate files", "anchors": ["utils/incr_models/thot_get_ngram_counts.sh", "utils/incr_models/thot_get_ngram_counts_mr.sh", "utils/incr_models/thot_merge_ngram_counts.sh"]}
{"id": "C250", "title": "-unk reserves one occurrence of each word", "statement": "With -unk both counting scripts write the counts of the corpus where the first occurrence of each word, in file order, is <unk>: each word loses exactly one occurrence, <unk> has one per different word, and the numbers of words and sentences do not change.", "quantifier": "all nonempty corpora, fragment sizes and orders", "why_tests_cant": "whole-corpus history of seen words, for every corpus", "anchors": ["utils/incr_models/thot_get_ngram_counts.sh", "utils/incr_models/thot_get_ngram_counts_mr.sh", "utils/incr_models/thot_merge_ngram_counts.sh"]}
{"id": "C251", "title": "Counts of the recaser/detokenizer translation model", "statement": "After any history of increments, the count of a source is the sum of its increments and its options are exactly the targets seen, once each; with increments of one the pair counts are exact and the probabilities of the options of a source add up to one.", "quantifier": "all histories of increments", "why_tests_cant": "needs induction over arbitrary histories", "anchors": ["utils/smt_preproc/thot_smt_preproc.py TransModel.increase_count, obtain_opts_for_src, obtain_trgsrc_prob"]}
{"id": "C252", "title": "Translation model file round trip", "statement": "Printing a trained translation model and loading it gives the same options and counts.", "quantifier": "all training histories of phrases", "why_tests_cant": "needs all models", "anchors": ["utils/smt_preproc/thot_smt_preproc.py TransModel.load, print_model_to_file"]}
{"id": "C253", "title": "N-gram counts of the recaser/detokenizer language model", "statement": "After training, the count of an n-gram of up to n words is the number of its occurrences in the lines between marks (the mark of begin alone is not counted), and the count of the empty n-gram is the number of words.", "quantifier": "all corpora, orders and n-grams", "why_tests_cant": "needs all corpora and orders", "anchors": ["utils/smt_preproc/thot_smt_preproc.py LangModel.train_word_array"]}
{"id": "C254", "title": "Probabilities of the recaser/detokenizer language model", "statement": "The probability of a word is its relative frequency and no probability is larger than one.", "quantifier": "all corpora and orders", "why_tests_cant": "needs all corpora", "anchors": ["utils/smt_preproc/thot_smt_preproc.py LangModel.obtain_trgsrc_prob"]}
{"id": "C255", "title": "Language model file round trip", "statement": "Printing a trained language model and loading it gives the same counts and order.", "quantifier": "all corpora and orders", "why_tests_cant": "needs all models", "anchors": ["utils/smt_preproc/thot_smt_preproc.py LangModel.load, print_model_to_file"]}
{"id": "C256", "title": "Recasing a text", "statement": "Each line is recased word by word: every word becomes a casing seen in training or stays as it is.", "quantifier": "all training texts, scores, orders from 2 and lines", "why_tests_cant": "needs all inputs of a best-first search", "anchors": ["utils/smt_preproc/thot_smt_preproc.py Decoder.recase, best_first_search, Hypothesis"]}
{"id": "C257", "title": "Detokenizing a text", "statement": "Each line is printed with its tokens grouped: only blanks change.", "quantifier": "all models, scores, word classes and lines", "why_tests_cant": "needs all inputs of a best-first search", "anchors": ["utils/smt_preproc/thot_smt_preproc.py Decoder.detokenize, obtain_detok_sent, best_first_search"]}
{"id": "C258", "title": "Decategorization", "statement": "Given the source without categories, the target and the information printed by the decoder about the hypothesis, every word of the target that is not a category is kept, and every category becomes the source word of the same category and the same order in the source segment its own segment is aligned with; it stays when there is none.", "quantifier": "all sentences, categorizations, segmentations and reorderings", "why_tests_cant": "needs all segmentations of all sentences", "anchors": ["utils/smt_preproc/thot_smt_preproc.py decategorize, decategorize_word, obtain_source_segments, obtain_target_cuts, extract_categ_words_of_segm"]}
{"id": "C259", "title": "Categorization of annotated phrases", "statement": "The source and the target phrase of an annotation are categorized together, exactly when each category occurs as many times in one as in the other; otherwise both are left as they are.", "quantifier": "all phrases and word categorizations", "why_tests_cant": "needs all pairs of phrases", "anchors": ["utils/smt_preproc/thot_smt_preproc.py areCategsPaired, categ_src_trg_annotation"]}
{"id": "C260", "title": "Parsing annotated lines", "statement": "Of any line only blanks can be lost when it is parsed; a line made of texts and annotations (annotated phrases, limits of length, forbidden words) is parsed into its parts, in order.", "quantifier": "all lines; all well-formed annotated lines", "why_tests_cant": "needs all lines and the backtracking of the regular expression", "anchors": ["utils/smt_preproc/thot_smt_preproc.py annotated_string_to_xml_skeleton, _annotation"]}
{"id": "C261", "title": "Removing annotations", "statement": "Removing the annotations of a well-formed line leaves its texts and the source phrases, in order, without blanks at their ends and separated by one blank.", "quantifier": "all well-formed annotated lines", "why_tests_cant": "needs all lines", "anchors": ["utils/smt_preproc/thot_smt_preproc.py remove_xml_annotations"]}
{"id": "C262", "title": "Lower-casing annotated lines", "statement": "Lower-casing a well-formed line changes the texts and the phrases only; every tag is kept in its place.", "quantifier": "all well-formed annotated lines", "why_tests_cant": "needs all lines", "anchors": ["utils/smt_preproc/thot_smt_preproc.py lowercase, xml_skeleton_to_string"]}
{"id": "C263", "title": "Categorizing annotated lines", "statement": "Categorizing a well-formed line categorizes the words of its texts, and its annotated phrases jointly, and keeps the tags, the limits of length and the forbidden words.", "quantifier": "all well-formed annotated lines and word categorizations", "why_tests_cant": "needs all lines", "anchors": ["utils/smt_preproc/thot_smt_preproc.py categorize"]}
{"id": "C264", "title": "Tokenizer", "statement": "The tokens are the non-blank parts of a division of the text: no other character is lost, repeated or moved. When the matches of the regular expression cover the text, the parts are the matches.", "quantifier": "all texts and all lists of matches found in order", "why_tests_cant": "needs all texts", "anchors": ["utils/smt_preproc/thot_smt_preproc.py Tokenizer.tokenize"]}
{"id": "C265", "title": "Tokenizing annotated lines", "statement": "The tokens of a line, annotated or not, have the characters of the line except blanks, in order; the tags of an annotation are tokens and its phrases are tokenized one by one.", "quantifier": "all lines and all regular expressions for tokens", "why_tests_cant": "needs all lines", "anchors": ["utils/smt_preproc/thot_smt_preproc.py tokenize, xml_skeleton_to_tokens"]}
{"id": "C266", "title": "Word confidences of an interactive translation", "statement": "Validated words get confidence 1, copied non-zero numbers 1, every other word the largest of its lexical probabilities given the NULL word and the source words, where a capitalized word (upper-case initial not followed by an upper-case letter) also counts with its initial in lower case; all confidences and the sentence confidence (their average) lie in [0,1].", "quantifier": "every pair of vocabularies, lexical model with probabilities in [0,1], source and target sentence and vector of validated flags", "why_tests_cant": "ranges over all lexical models and all sentences", "anchors": ["src/sw_models/ThotIbmMaxConfid.cc: getWordConfidences, getSentenceConfidence"]}
{"id": "C267", "title": "Rescoring an n-best list", "statement": "Rescoring with given weights replaces the score of every entry by the sum of the products of the weights and its features, keeping everything else, and the best translation is that of an entry with the greatest new score.", "quantifier": "all n-best lists and all weights", "why_tests_cant": "ranges over all lists and weights; the order depends on how scores are printed", "anchors": ["utils/error_correction/thot_rescore_nbest.sh", "utils/error_correction/thot_obtain_best_trans_from_nbl.sh"]}
{"id": "C268", "title": "Segmentation of n-best entries", "statement": "Every entry is printed with the first and the last source position translated by every transition of its path and the number of target words up to every transition.", "quantifier": "all word graphs, state indices and n-best lists whose paths are in the graph", "why_tests_cant": "ranges over all graphs and lists", "anchors": ["utils/stack_dec/thot_get_nblist_segm_info.py"]}
{"id": "C269", "title": "Adding a component to an n-best list", "statement": "The new component appears in the header with weight 1, every entry gets the value on its line of the file of values as its last feature and the sum of the products with the weights of the header as score; its states and translation do not change.", "quantifier": "all n-best lists with or without states, and all values", "why_tests_cant": "ranges over all lists", "anchors": ["utils/error_correction/thot_augment_nblist.sh"]}
{"id": "C270", "title": "Removing a component from an n-best list", "statement": "The last component with the name is removed from the header and the feature in its place from every entry, the scores are computed again; a list without the component keeps its features; removing a component just added restores the features of all entries.", "quantifier": "all n-best lists with or without states, and all names", "why_tests_cant": "ranges over all lists", "anchors": ["utils/error_correction/thot_remove_nbl_component.sh"]}
{"id": "C271", "title": "Merging n-best lists", "statement": "The merged list has the components of both lists and every different entry of the two exactly once, without scores, in order; lists with different components are not merged.", "quantifier": "all pairs of n-best lists", "why_tests_cant": "ranges over all pairs of lists", "anchors": ["utils/error_correction/thot_merge_nbest_list.sh"]}
{"id": "C272", "title": "Filtering an n-best list by constraints", "statement": "Exactly the entries are printed in whose derivation every constrained source phrase whose first word is translated by a transition is the whole phrase of the transition, with the words required.", "quantifier": "all word graphs, n-best lists and constraints", "why_tests_cant": "ranges over all graphs, lists and constraints; composes three programs", "anchors": ["utils/stack_dec/thot_filter_nblist.sh", "src/stack_dec/thot_check_constraints.cc", "utils/stack_dec/thot_get_nblist_segm_info.py"]}
{"id": "C273", "title": "Filtering a phrase table by a corpus", "statement": "The filtered table has exactly the lines, in order and unchanged, whose second phrase is not empty and is a contiguous part of a sentence of the corpus.", "quantifier": "all corpora and phrase tables whose words have no blank and are not |||", "why_tests_cant": "ranges over all files", "anchors": ["utils/phrase_models/thot_filter_ttable_given_corpus.sh"]}
{"id": "C274", "title": "Filtering a lexical table by a corpus", "statement": "The filtered table has exactly the lines, in order and unchanged, whose source word (or the null word) and target word occur together in a pair of the corpus, with the vocabularies read from their files.", "quantifier": "all vocabularies, corpora of the same length and tables", "why_tests_cant": "ranges over all files", "anchors": ["utils/sw_models/thot_filter_text_ilextable.sh"]}
{"id": "C275", "title": "Merging text tables of counts", "statement": "The merge of tables of counts sorted by source and target has one line for each pair of source and target of the tables, with the sum of the counts of the pair and the sum of the counts of the source in the tables where it occurs.", "quantifier": "all sets of tables in text format, all sorted orders of their lines", "why_tests_cant": "ranges over all files and every order that sort allows", "anchors": ["utils/sw_models/thot_merge_text_ilextable.sh", "utils/sw_models/thot_merge_text_iibm2atable.sh", "utils/sw_models/thot_merge_text_ihmmatable.sh"]}
{"id": "C276", "title": "Converting GIZA alignments to Moses format", "statement": "Converting a file written by the library in GIZA format prints a line for each sentence pair with exactly the links of its alignment, as pairs of positions that start at zero; links of the null word are not printed.", "quantifier": "all files of alignments written by the library", "why_tests_cant": "ranges over all files written by another program", "anchors": ["utils/phrase_models/thot_conv_giza_alig_file.py:extract_src_info", "utils/phrase_models/thot_conv_giza_alig_file.py:conv_giza_file_to_moses", "src/sw_models/AlignmentExtractor.cc"]}
{"id": "C277", "title": "Exhaustive alignments", "statement": "For two files of sentences an entry is written for each pair up to the end of the shorter file; every source word is linked with every target word and the null word with none.", "quantifier": "all pairs of files of sentences", "why_tests_cant": "ranges over all files", "anchors": ["utils/phrase_models/thot_gen_exhaustive_giza_alig.py", "utils/phrase_models/thot_conv_giza_alig_file.py:conv_giza_file_to_moses"]}
{"id": "C278", "title": "Replacing unknown words", "statement": "Every word that is not in the vocabulary is replaced by <unk> and the others stay in their positions; the number of lines is kept; a line whose words are all in the vocabulary is printed unchanged.", "quantifier": "all vocabularies and texts", "why_tests_cant": "ranges over all files", "anchors": ["utils/nlp_common/thot_replace_oov_with_unk.sh"]}
{"id": "C279", "title": "The file of dynamic classes", "statement": "Loading a file that can be read gives for each base class the library (with the library directory in place of its variable) and the parameters of the last line that declares it; comments and lines with less than four words declare nothing; loading an unreadable file is an error.", "quantifier": "all files", "why_tests_cant": "ranges over all files", "anchors": ["src/nlp_common/DynClassFileHandler.cc:load", "src/nlp_common/DynClassFileHandler.cc:getInfoForBaseClass", "src/nlp_common/StrProcUtils.cc:expandLibDirIfFound"]}
{"id": "C280", "title": "Open libraries of the dynamic classes", "statement": "At every moment of every history of initialisations and releases each library is open as many times as there are classes that use it; objects are created with the library that is open, and no object if there is none; after releasing no library is open.", "quantifier": "all histories of init_smt, init_smt_and_imt, release_smt and release_smt_and_imt, with all files and libraries, usable or not", "why_tests_cant": "ranges over all histories, including failed initialisations", "anchors": ["src/nlp_common/SimpleDynClassLoader.h:open_module", "src/nlp_common/SimpleDynClassLoader.h:close_module", "src/stack_dec/DynClassFactoryHandler.cc"]}
{"id": "C281", "title": "Initialisation of the dynamic classes", "statement": "The initialisation succeeds exactly if the file can be read, declares each of the twelve classes and their libraries can be opened and have both functions; then each class creates objects with the library that the file gives, and its initialisation parameters are those of the file.", "quantifier": "all histories before the initialisation, all files and libraries", "why_tests_cant": "ranges over all histories, files and behaviours of the libraries", "anchors": ["src/stack_dec/DynClassFactoryHandler.cc:init_smt", "src/stack_dec/DynClassFactoryHandler.cc:init_smt_and_imt"]}
{"id": "C282", "title": "A failed initialisation of the dynamic classes", "statement": "An initialisation that fails leaves no library open.", "quantifier": "all histories, files and libraries", "why_tests_cant": "ranges over all histories, files and behaviours of the libraries", "anchors": ["src/stack_dec/DynClassFactoryHandler.cc:init_smt"]}
{"id": "C283", "title": "Shuffling a file permutes its lines", "statement": "thot_shuffle prints each line of the file once (with its words separated by one blank) in an order that depends only on the seed and the number of lines, so that files with the same number of lines are shuffled in parallel; the alternative implementation prints a permutation of the lines too.", "quantifier": "all files and all sequences of random numbers", "why_tests_cant": "Files of any length and any sequence of random numbers.", "anchors": ["utils/nlp_common/thot_shuffle.sh::shuffle, thot_shuffle_alt"]}
{"id": "C284", "title": "A corpus partition gives disjoint, aligned sets", "statement": "When thot_gen_partition gives no error, the training, development and test files hold disjoint parts of the corpus of the requested sizes, with the same sentences in both languages; it gives an error if the files have different lengths, there are not enough sentences, or the number for each set is 0.", "quantifier": "all corpora, sizes and random numbers", "why_tests_cant": "Any corpus and any sizes, with the overlap only at certain sizes.", "anchors": ["utils/exper/thot_gen_partition.sh", "utils/nlp_common/thot_shuffle.sh::shuffle, thot_shuffle_alt"]}
{"id": "C285", "title": "Bootstrap confidence intervals", "statement": "The confidence interval scripts run N bootstrap experiments; the bounds of an interval are results, at most 2.5% (5%) of N results lie below it and at most as many above it, center and radius give the bounds, and the mean and deviation are those of the results.", "quantifier": "all numbers of subsets and results", "why_tests_cant": "Any number of experiments with any results.", "anchors": ["utils/stack_dec/thot_conf_interv_smt.sh::bootstrap_eval", "utils/stack_dec/thot_conf_interv_cat.sh::bootstrap_eval"]}
{"id": "C286", "title": "Bootstrap samples are made of sentence pairs of the corpus", "statement": "A bootstrap sample has S elements, each a test sentence with its own reference; in the case of computer-assisted translation the measures are the key strokes (and mouse actions) per hundred characters of the whole sample, undefined only if it has no characters.", "quantifier": "all files, sample sizes and random numbers", "why_tests_cant": "Any sequence of random numbers.", "anchors": ["utils/stack_dec/thot_conf_interv_smt.sh::bootstrap_exper", "utils/stack_dec/thot_conf_interv_cat.sh::bootstrap_exper"]}
{"id": "C287", "title": "The histogram of lengths is complete", "statement": "thot_corpus_length prints a row for each length from 0 to the largest one, with the number of lines of that length, of at most that length, and their percentages; the last row accumulates the whole corpus, and the number of lines and mean length are right; only an empty corpus is an error.", "quantifier": "all corpora", "why_tests_cant": "Corpora of any size.", "anchors": ["utils/nlp_common/thot_corpus_length.sh::corpus_length"]}
{"id": "C288", "title": "Vocabularies for alignment models", "statement": "thot_get_swm_vocab numbers the special symbols in the given order and then the words of the corpus in the order of their first occurrences, with consecutive indices from 0, and gives the number of occurrences of each one.", "quantifier": "all corpora and lists of special symbols", "why_tests_cant": "Any corpus and any list of symbols.", "anchors": ["utils/sw_models/thot_get_swm_vocab.sh"]}
{"id": "C289", "title": "Merging segment length counts adds them", "statement": "thot_merge_seglen_counts prints one line for each pair of lengths of the input with the sum of its counts, whatever the order of the lines is.", "quantifier": "all files of counts, in any order", "why_tests_cant": "Files of any length in any order.", "anchors": ["utils/phrase_models/thot_merge_seglen_counts.sh"]}
{"id": "C290", "title": "The generated sentence length model holds means and squared deviations", "statement": "thot_gen_wigauss_slen_model gives the number of sentence pairs, the sums of the lengths, and for each source length the number of pairs, the mean of the target lengths and the sum of their squared deviations.", "quantifier": "all pairs of files", "why_tests_cant": "Files of any length, where errors of the recurrence would accumulate.", "anchors": ["utils/sw_models/thot_gen_wigauss_slen_model.sh"]}
{"id": "C291", "title": "Statistics of n-gram counts", "statement": "For each order thot_repetition_rate gives the number of n-grams, of different n-grams and of those seen once, and a rate between 0 and 1 which is the part of the different n-grams seen more than once.", "quantifier": "all count files", "why_tests_cant": "Count files of any size.", "anchors": ["utils/incr_models/thot_repetition_rate.sh::obtain_statistics"]}
{"id": "C292", "title": "N-grams not seen in training", "statement": "The list of new n-grams of thot_repetition_rate has exactly the n-grams of the corpus that the training corpus does not have, each once and with its counts, however the joined file is sorted.", "quantifier": "all pairs of count files and all sorted orders", "why_tests_cant": "Any pair of files and any order of equal keys.", "anchors": ["utils/incr_models/thot_repetition_rate.sh::transform_count_file, obtain_ngc_of_corpus_not_present_in_train"]}
{"id": "C293", "title": "Repetition rate and fraction of unseen n-grams", "statement": "The repetition rate is the geometric mean of the four rates (0 only if one of them is 0); each fraction of unseen n-grams is their number divided by the number of n-grams, between 0 and 1; the four fractions printed are those of orders 1 to 4.", "quantifier": "all rates and count files", "why_tests_cant": "Real-valued results for any input.", "anchors": ["utils/incr_models/thot_repetition_rate.sh::compute_rr, compute_unf, compute_unf_for_n_totals"]}
{"id": "C294", "title": "The phrase-table trie is a map", "statement": "After any history of insert, operator[] with assignment and clear on the trie map used by the trie phrase table, find returns what an ideal map that went through the same history would return, insert reports true exactly for new keys and never changes an existing value, and the burst threshold has no visible effect.", "quantifier": "all histories, keys, values and burst thresholds", "why_tests_cant": "Bursting moves keys between nodes; whether a key is lost or doubled depends on the whole history and on shared prefixes.", "anchors": ["src/hat_trie/htrie_hash.h::insert, access_operator, find, burst, burst_children", "src/hat_trie/htrie_map.h"]}
{"id": "C295", "title": "Iterating over the trie", "statement": "The loop from begin() to end() reads each entry of the map exactly once, with its current value, ends after size() steps and never dereferences a null node or an empty table.", "quantifier": "all histories of insertions, assignments and clear, all burst thresholds", "why_tests_cant": "Iterators climb and descend through all shapes of the tree.", "anchors": ["src/hat_trie/htrie_hash.h::operator++, cbegin, set_next_node_ascending, most_left_descendant_value, key, value, size"]}
{"id": "C296", "title": "Prefix ranges of the trie", "statement": "The range of equal_prefix_range reads exactly the entries whose key has the prefix, each once, and the loop over it ends, also when the prefix ends inside a table, at an inner node or at no node.", "quantifier": "all histories, prefixes and burst thresholds", "why_tests_cant": "The end of the range is the position after a subtree; whether it is reached exactly depends on the shape.", "anchors": ["src/hat_trie/htrie_hash.h::equal_prefix_range, equal_prefix_range_impl, filter_prefix, cend"]}
{"id": "C297", "title": "Removing keys from the trie", "statement": "erase(key) removes exactly that key, reports whether it was there, keeps the size, and leaves a trie whose iterators are defined.", "quantifier": "all histories with removals", "why_tests_cant": "Depends on what a removal leaves of its nodes.", "anchors": ["src/hat_trie/htrie_hash.h::erase, clear_empty_nodes"]}
{"id": "C298", "title": "Tables of the trie stay small", "statement": "After any history of insertions, assignments and clear no table of the trie holds more elements than the burst threshold (at least 4), so a look-up inspects one table of bounded size.", "quantifier": "all histories and burst thresholds", "why_tests_cant": "Bursts can leave all keys in one child and must then go on.", "anchors": ["src/hat_trie/htrie_hash.h::burst, burst_children, need_burst, insert_in_hash_node, burst_threshold"]}
{"id": "C299", "title": "Contents of the conditional probability table", "statement": "After any history of setting source counts, pair counts and entries, incrementing counts and clear, the count found for a source (a pair) is the last value set plus the increments since, and a source (a pair) without any is not found.", "quantifier": "all histories, sources, targets and counts", "why_tests_cant": "Increments and assignments interleave over nested maps; depends on the whole history.", "anchors": ["src/incr_models/IncrCondProbTable.h::addTableEntry, addSrcInfo, addSrcTrgInfo, incrCountsOfEntryLog, getSrcInfo, getSrcTrgInfo, clear"]}
{"id": "C300", "title": "Incremental probabilities are normalised", "statement": "After any increments of a new table, the counts of sources, targets and pairs are the totals of the increments, p(t|s) and p(s|t) are the quotients of those totals, and each sums to one over the targets (sources) seen.", "quantifier": "all sequences of increments (integer counts)", "why_tests_cant": "Normalisation depends on two maps being incremented in step.", "anchors": ["src/incr_models/IncrCondProbTable.h::incrCountsOfEntryLog, lcSrc, lcTrg, lcSrcTrg, pTrgGivenSrc, pSrcGivenTrg"]}
{"id": "C301", "title": "Queries never read a missing source", "statement": "No query of the table reads through an end iterator, whatever the history.", "quantifier": "all histories and queries", "why_tests_cant": "Depends on whether a pair was added for a source without a count.", "anchors": ["src/incr_models/IncrCondProbTable.h::infSrcTrg, getEntriesForTarget, getEntriesForSource"]}
{"id": "C302", "title": "Entries of a target and of a source", "statement": "getEntriesForTarget and getEntriesForSource give exactly the entries stored for the target (source), each once with the two counts, and tell whether there is any.", "quantifier": "all histories, targets and sources", "why_tests_cant": "Depends on the whole table and on what the node passed contains.", "anchors": ["src/incr_models/IncrCondProbTable.h::getEntriesForTarget, getEntriesForSource"]}
{"id": "C303", "title": "n-best targets of a source", "statement": "getNbestForSrc gives each target of the source once, by decreasing p(t|s), with log p(t|s) as score.", "quantifier": "all histories and sources, any logarithm", "why_tests_cant": "The order must hold for all counts.", "anchors": ["src/incr_models/IncrCondProbTable.h::getNbestForSrc"]}
{"id": "C304", "title": "n-best sources of a target", "statement": "getNbestForTrg gives the first N sources of the target by decreasing p(t|s).", "quantifier": "all histories, targets and N", "why_tests_cant": "The order must hold for all counts.", "anchors": ["src/incr_models/IncrCondProbTable.h::getNbestForTrg"]}
{"id": "C305", "title": "Codes of the generic encoder", "statement": "Words given a code keep it and get distinct codes, the inverse look-up is the inverse, and a word without a code gets a number that is nobody's code, after any history of codings, clears and loads.", "quantifier": "all histories of one side of the encoder", "why_tests_cant": "Collisions depend on how counters and files interleave.", "anchors": ["src/incr_models/IncrEncoder.h::HighSrc_to_Src, Src_to_HighSrc, genHSrcCode, addHSrcCode, clear, load", "src/incr_models/_incrEncCondProbModel.h::addHSrcCode"]}
{"id": "C306", "title": "Printing and loading the encoder", "statement": "The vocabularies written by print are read back by load with the same codes, for source and target.", "quantifier": "all encoders", "why_tests_cant": "Both sides must be written and read whatever they contain.", "anchors": ["src/incr_models/IncrEncoder.h::load, print, loadSrc, printSrc, loadTrg, printTrg"]}
{"id": "C307", "title": "Word-level counts", "statement": "After counts of pairs of words are incremented on a new model, the count found for a word (a pair of words) is the total of its increments, and others are not found.", "quantifier": "all sequences of word-level increments", "why_tests_cant": "Words go through codes that are generated on the way; a collision or reuse would mix counts.", "anchors": ["src/incr_models/_incrEncCondProbModel.h::incrCountsOfEntryHigh, getHSrcInfo, getHSrcHTrgInfo", "src/incr_models/IncrEncoder.h::HighSrc_to_Src"]}
{"id": "C308", "title": "Capitalisation options of a word", "statement": "The options loaded from the capitalisation file for a word are the fields from the third on of the first line that starts with the word and has more than two fields; a word with no such line has none.", "quantifier": "every file content and word", "why_tests_cant": "Depends on order and repetition of lines; tests show a few files.", "anchors": ["src/smt_preproc/XRCE_PrePosProcessor2.cc: loadCapitOptions"]}
{"id": "C309", "title": "Capitalisation without a prefix", "statement": "Without prefix, capitalising a sentence preserves the number of words; each word becomes the first of its options with the largest language-model log-probability after the words already output (itself if it has none), and the end-of-prefix mark is not shown to the model.", "quantifier": "every language model, options table and sentence", "why_tests_cant": "Needs induction over the sentence with the model state threaded.", "anchors": ["src/smt_preproc/XRCE_PrePosProcessor2.cc: capitalize"]}
{"id": "C310", "title": "Capitalisation respects the prefix", "statement": "With a prefix, the capitalised sentence starts with the words of the prefix but the last and then has a word that extends the last word of the prefix whenever one of its options does; the rest is chosen as without prefix.", "quantifier": "every language model, options table, prefix and sentence", "why_tests_cant": "Depends on arbitrary option tables and prefixes; the faulty comparison only shows for capitalised prefixes.", "anchors": ["src/smt_preproc/XRCE_PrePosProcessor2.cc: capitalize"]}
{"id": "C311", "title": "The prefix used for capitalisation", "statement": "After any history of calls, post-processing capitalises with the last pre-processed sentence as prefix, or with no prefix if it was pre-processed keeping its information; without case conversion the words are unchanged.", "quantifier": "every history of calls on the processor", "why_tests_cant": "Depends on the history of calls.", "anchors": ["src/smt_preproc/XRCE_PrePosProcessor2.cc: preprocLine, postprocLine"]}
{"id": "C312", "title": "Processors restore their own categories", "statement": "With several processors sharing the categorisation library, post-processing with one of them uses the categories of the sentence it kept last, whatever the others did in between.", "quantifier": "every history of interleaved calls on any number of processors", "why_tests_cant": "Interleavings of several objects sharing global tables.", "anchors": ["src/smt_preproc/XRCE_PrePosProcessor1.cc: preprocLine, postprocLine", "src/smt_preproc/EU_PrePosProcessor1.cc", "src/smt_preproc/EU_PrePosProcessor2.cc", "src/smt_preproc/XRCE_PrePosProcessor4.cc"]}
{"id": "C313", "title": "N-best files are read back", "statement": "The weight-update tool reads from the file of an n-best list all its translations, in order, with the score components selected by -va.", "quantifier": "every n-best list, header and selection", "why_tests_cant": "A write/read round trip over arbitrary lists and headers.", "anchors": ["src/error_correction/thot_wg_proc.cc: printNbList", "src/stack_dec/thot_ll_weight_upd_nblist.cc: obtain_nblist_and_scr_comps_for_file"]}
{"id": "C314", "title": "What is lost in n-best files without weights or components", "statement": "Without component weights exactly the first (best) translation is lost when the file is read; without score components the arcs of the hypothesis are read in their place.", "quantifier": "every n-best list", "why_tests_cant": "Quantifies over all lists; shows exactly what is lost.", "anchors": ["src/error_correction/thot_wg_proc.cc: printNbList", "src/stack_dec/thot_ll_weight_upd_nblist.cc: obtain_nblist_and_scr_comps_for_file"]}
{"id": "C315", "title": "Excluded weights are zero and the others keep their place", "statement": "With a selection of the weights, the update algorithm receives the selected weights and the result has the new weights at the selected positions, in order, and zero elsewhere.", "quantifier": "every weight vector, selection and length-preserving update algorithm", "why_tests_cant": "Needs every selection pattern.", "anchors": ["src/stack_dec/thot_ll_weight_upd_nblist.cc: update_ll_weights"]}
{"id": "C316", "title": "Parameters of the weight-update tool", "statement": "The tool accepts its command line when both files and the weights are given; -va is optional.", "quantifier": "every command line", "why_tests_cant": "Every combination and order of options.", "anchors": ["src/stack_dec/thot_ll_weight_upd_nblist.cc: takeParameters, checkParameters"]}
{"id": "C317", "title": "N-best lists in the order of their names", "statement": "The n-best lists read are those of the files named, one per name and in order; there is an error exactly when one cannot be opened.", "quantifier": "every list of names and file contents", "why_tests_cant": "Every list of files.", "anchors": ["src/stack_dec/thot_ll_weight_upd_nblist.cc: obtain_nblists_and_scr_comps"]}
{"id": "C318", "title": "Features loaded from descriptors", "statement": "Loading a descriptor of language models and one of translation models succeeds iff there is a translation model and all the interpolation-weight files are readable; the features are then the word penalty, one per language model, two per translation model and the three for lengths and jumps, in that order.", "quantifier": "every pair of descriptors and every contents of the files", "why_tests_cant": "Number and order of features for every number of models (the weight vector given by the user follows this order).", "anchors": ["src/stack_dec/StdFeatureHandler.cc: loadMonolingualFeats, loadBilingualFeats, process_lm_descriptor, process_tm_descriptor"]}
{"id": "C319", "title": "Saving interpolation weights", "statement": "Saving the interpolation weights of the models just loaded from a descriptor does not change the weights that the files give.", "quantifier": "every descriptor and every contents of the files", "why_tests_cant": "Depends on coincidences of names in the descriptor.", "anchors": ["src/stack_dec/StdFeatureHandler.cc: printAligModelLambdas, printLambdasForModel, getFeatureIdx"]}
{"id": "C320", "title": "Files of interpolation weights", "statement": "A file of interpolation weights is accepted iff its first line has one value (used for both models) or two; what is saved is read back; loading with a prefix and saving changes no weights.", "quantifier": "every file contents", "why_tests_cant": "Ranges over all file contents.", "anchors": ["src/stack_dec/SmtModelUtils.cc: loadSwmLambdas, printSwmLambdas"]}
{"id": "C321", "title": "Phrase pairs of a development corpus are taken line by line", "statement": "Extracting phrase pairs from a source and a target file pairs the i-th line with the i-th line: the output has one list for each line number that both files have. A file that cannot be opened is an error that leaves the output as it was; a difference in the number of lines is an error; a line of more than 100 words gives an empty list and does not affect the others.", "quantifier": "all files, all consistent-pair functions, all former values of the output", "why_tests_cant": "A test uses a few aligned files; the claim is for files of any lengths, equal or not.", "anchors": ["src/phrase_models/PhraseExtractUtils.cc: extractPhrPairsFromCorpusFiles, extractConsistentPhrasePairs, extractPhrasesFromPairPlusAlig"]}
{"id": "C322", "title": "Filtering phrase pairs keeps exactly the admissible ones in order", "statement": "The filter of phrase pairs gives exactly the pairs of its input that have equal sides or no category tag on either side, each as often as it occurs and in the same order, discards what the output held before, and changes nothing when applied again.", "quantifier": "all lists of phrase pairs, all former values of the output", "why_tests_cant": "Tests filter a few pairs; the claim is for every list and every position of a tag.", "anchors": ["src/phrase_models/PhraseExtractUtils.cc: filterPhrasePairs", "src/phrase_models/StrictCategPhrasePairFilter.cc: phrasePairIsOk"]}
{"id": "C323", "title": "The set the phrase weights are tuned on", "statement": "Tuning the interpolation weights of the phrase models is refused unless both development files open and the source file has at least as many lines as the target file; otherwise the tuning set has one list for each target line, holding in order the admissible pairs extracted with the target line first, and the empty list when a line is over the limit.", "quantifier": "all development files, all consistent-pair functions", "why_tests_cant": "A test tunes on one corpus; the claim is for all pairs of files, including unequal ones.", "anchors": ["src/stack_dec/WeightUpdateUtils.cc: updatePmLinInterpWeights", "src/phrase_models/PhraseExtractUtils.cc: extractPhrPairsFromCorpusFiles, filterPhrasePairs"]}
{"id": "C324", "title": "Asking for the features of a type gives all of them with their positions", "statement": "The list of features of a type holds all of them in their order, and comes with a list of as many positions, increasing, exactly those of the features of that type; the k-th position is that of the k-th feature returned.", "quantifier": "all lists of features of any types", "why_tests_cant": "A test has one mix of features; the claim is for every number and order of features.", "anchors": ["src/stack_dec/FeaturesInfo.h: getLangModelFeatPtrs, getDirectPhraseModelFeatPtrs, getInversePhraseModelFeatPtrs, getSrcPosJumpFeatPtrs"]}
{"id": "C325", "title": "A count kept as a logarithm is read back as the sum of what was put in", "statement": "A count that is set and then incremented any number of times by numbers that are not negative is read back as the sum; adding the logarithm of a number is the same as adding the number.", "quantifier": "all positive first counts, all histories of increments, over the reals", "why_tests_cant": "Tests try a few counts; the claim is for every history.", "anchors": ["src/nlp_common/LogCount.h: set_count, incr_count, incr_logcount, get_c_s"]}
