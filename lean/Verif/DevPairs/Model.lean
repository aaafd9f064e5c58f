import Verif.MathFuncs.Model

/-!
Model of the extraction of phrase pairs from a development corpus (phrase_models/PhraseExtractUtils.cc), of its use when
the weights of the phrase models are tuned (stack_dec/WeightUpdateUtils.cc:137-158), of the lists of features of a type
(stack_dec/FeaturesInfo.h) and of counts kept as logarithms (nlp_common/LogCount.h).

Simplifications: a file is its list of tokenised lines (`AwkInputStream` is modelled in `Verif.Awk`), `none` when it
cannot be opened. The consistent pairs of an aligned sentence pair are a parameter (modelled in `Verif.PhrExtract` and
`Verif.WordAlig`). Floats are reals extended with infinities and NaN.
-/

namespace Thot.DevPairs

abbrev Sent := List String

/-- phrase_models/PhrasePair.h:37-42 `PhrasePair`; the weight is not read by this code. -/
structure Pair where
  s : Sent
  t : Sent
deriving DecidableEq

/-- phrase_models/PhraseDefs.h:46. -/
def maxSentenceLength : Nat := 101

/-- PhraseExtractUtils.cc:128-147 `extractPhrasesFromPairPlusAlig`: `ns` is the source with the null word; the
subtraction is on `size_t`, `none` is the wrapped value, which is over the limit. -/
def fromAlig (cons : Sent → Sent → List Pair) (ns t : Sent) (prev : List Pair) : List Pair :=
  let n : Option Nat := if ns.length = 0 then none else some (ns.length - 1)
  if t.length < maxSentenceLength ∧ (n.any fun k => k < maxSentenceLength) = true then cons ns t else prev

/-- PhraseExtractUtils.cc:97-126 `extractConsistentPhrasePairs` on the empty vector of line 80;
the null word is put before the source (`addNullWordToStrVec`). -/
def extractOne (cons : Sent → Sent → List Pair) (s t : Sent) : List Pair :=
  fromAlig cons ("NULL" :: s) t []

/-- PhraseExtractUtils.cc:57-86: one turn for each line of the source. -/
def loop (cons : Sent → Sent → List Pair) : List Sent → List Sent → List (List Pair) → Bool × List (List Pair)
  | [], _, acc => (true, acc)
  | _ :: _, [], acc => (false, acc)
  | s :: ss, t :: ts, acc => loop cons ss ts (acc ++ [extractOne cons s t])

/-- PhraseExtractUtils.cc:30-93 `extractPhrPairsFromCorpusFiles`; `prev` is the former value of the vector of results.
`true` stands for THOT_OK. -/
def extractCorpus (cons : Sent → Sent → List Pair) (src trg : Option (List Sent)) (prev : List (List Pair)) :
    Bool × List (List Pair) :=
  match src with
  | none => (false, prev)
  | some ss => match trg with
    | none => (false, prev)
    | some ts => loop cons ss ts []

/-- smt_preproc/SmtPreprocDefs.h:53-55, the category set of StrictCategPhrasePairFilter.cc:30-35. -/
def categs : List String := ["<digit>", "<number>", "<alfanum>"]

/-- StrictCategPhrasePairFilter.cc:38-91 `phrasePairIsOk` (the maps it fills are not used). -/
def pairOk (p : Pair) : Bool :=
  if p.s.any categs.contains || p.t.any categs.contains then decide (p.s = p.t) else true

/-- PhraseExtractUtils.cc:168-178 `filterPhrasePairs`: the loop after `clear()`. -/
def filterLoop : List Pair → List Pair → List Pair
  | [], acc => acc
  | p :: ps, acc => filterLoop ps (if pairOk p then acc ++ [p] else acc)

/-- PhraseExtractUtils.cc:168-178 `filterPhrasePairs`; `prev` is the former value of the output. -/
def filterPairs (us _prev : List Pair) : List Pair := filterLoop us []

/-- WeightUpdateUtils.cc:137-158: the pairs the weights are tuned on (source and target are exchanged in the call);
`none`: the update is refused. -/
def tuneSet (cons : Sent → Sent → List Pair) (srcFile trgFile : Option (List Sent)) : Option (List (List Pair)) :=
  let r := extractCorpus cons trgFile srcFile []
  let f := r.2.map fun us => filterPairs us []
  if r.1 then some f else none

/-! ### Features of a type -/

/-- FeaturesInfo.h:57-72 `getLangModelFeatPtrs` (and 75-90, 93-108, 111-126 for the other types): `cast` is the
`dynamic_cast`. The pair is the vector returned and the vector of indices. -/
def getPtrs {F G : Type} (cast : F → Option G) : List F → Nat → List G × List Nat → List G × List Nat
  | [], _, acc => acc
  | f :: fs, i, acc => getPtrs cast fs (i + 1) (match cast f with
      | none => acc
      | some g => (acc.1 ++ [g], acc.2 ++ [i]))

/-! ### Counts kept as logarithms -/

open Thot.MathFuncs

/-- LogCount.h:73 `set_count(Count)`. -/
noncomputable def setCount (y : Dbl) : Dbl := y.log

/-- LogCount.h:70-72 `set_count(float)`, `set_count(double)`, `set_count(int)`. -/
def setCountNum (y : Dbl) : Dbl := y

/-- LogCount.h:77-80 `incr_count`. -/
noncomputable def incrCount (x y : Dbl) : Dbl := lnsSumlog x y.log

/-- LogCount.h:81-82 `incr_logcount`. -/
noncomputable def incrLogcount (x y : Dbl) : Dbl := lnsSumlog x y

/-- LogCount.h:84-85 `get_c_s`, `get_c_st`. -/
noncomputable def getC (x : Dbl) : Dbl := x.exp

end Thot.DevPairs
