import Verif.HatTable.Model
import Verif.Vocab.Model
import Verif.Awk.Model
import Verif.Srf.Model
/-!
Model of the training of phrase models (src/phrase_models/_wbaIncrPhraseModel.cc, _incrPhraseModel.cc), of the filters of
phrase pairs (CategPhrasePairFilter.cc, StrictCategPhrasePairFilter.cc) and of the printing and loading of phrase tables
(WbaIncrPhraseModel.cc, _incrPhraseModel.cc) with the trie phrase table.

Counts are rationals (they are `float`s). `printf("%.8f")` and `atof` are parameters. The segmentation length table is not
modelled here. The file printed is modelled as its complete contents: `_incrPhraseModel::printTTable(const char*)` never
closes it, so in the code the last buffer is written only when the process ends.
-/
namespace Thot.PhrTrain
open AMap

abbrev Str := Thot.Vocab.Str
abbrev SPhrase := List Str

/-- The part of the state of `_incrPhraseModel` (h:250-262): `singleWordVocab` (source and target halves) and the phrase
table. -/
structure St where
  sv : Vocab.Voc
  tv : Vocab.Voc
  m : HatTable.Trie

/-- _incrPhraseModel.cc:673-679 `clear`; also the state of a new model. -/
def clear : St := ⟨Vocab.clear, Vocab.clear, []⟩

/-- _incrPhraseModel.cc:39-49 `strAddTableEntry` with 531-539 `strVectorToSrcIndexVector` and its target version. -/
def strAddTableEntry (st : St) (s t : SPhrase) (cs cst : Rat) : St :=
  let es := Vocab.strVectorToIndexVector st.sv s
  let et := Vocab.strVectorToIndexVector st.tv t
  ⟨es.2, et.2, HatTable.addTableEntry st.m es.1 et.1 cs cst⟩

/-- _incrPhraseModel.cc:60-70 `strIncrCountsOfEntry`. -/
def strIncrCountsOfEntry (st : St) (s t : SPhrase) (c : Rat) : St :=
  let es := Vocab.strVectorToIndexVector st.sv s
  let et := Vocab.strVectorToIndexVector st.tv t
  ⟨es.2, et.2, HatTable.incrCountsOfEntry st.m es.1 et.1 c⟩

/-- _incrPhraseModel.cc:107-112, 115-120, 129-134, 143-148: the loop that converts the words; `none`: a word is not in the vocabulary. -/
def known (v : Vocab.Voc) : SPhrase → Option (List Nat)
  | [] => some []
  | w :: ws => if Vocab.existSymbol v w then (known v ws).map (Vocab.stringToWordIndex v w :: ·) else none

/-- _incrPhraseModel.cc:101-122 `cHSrcHTrg`. -/
def cHSrcHTrg (st : St) (hs ht : SPhrase) : Rat :=
  match known st.sv hs with
  | none => 0
  | some s => match known st.tv ht with
    | none => 0
    | some t => HatTable.cSrcTrg st.m s t

/-- _incrPhraseModel.cc:125-136 `cHSrc`. -/
def cHSrc (st : St) (hs : SPhrase) : Rat :=
  match known st.sv hs with
  | none => 0
  | some s => HatTable.cSrc st.m s

/-- _incrPhraseModel.cc:139-150 `cHTrg`. -/
def cHTrg (st : St) (ht : SPhrase) : Rat :=
  match known st.tv ht with
  | none => 0
  | some t => HatTable.cTrg st.m t

/-! ### Filters -/

/-- SmtPreprocDefs.h:53-55 and CategPhrasePairFilter.cc:32-37: `categorySet`. -/
def categs : List Str := ["<digit>".toList, "<number>".toList, "<alfanum>".toList]

/-- CategPhrasePairFilter.cc:48-52 (all categories have count 0) and 55-61, 64-70: `categMap[w]+=1`. -/
def collect : SPhrase → List (Str × Nat) → List (Str × Nat)
  | [], m => m
  | w :: ws, m => collect ws (if categs.contains w then put m w ((lk m w).getD 0 + 1) else m)

def initMap : List (Str × Nat) := categs.map fun c => (c, 0)

/-- CategPhrasePairFilter.cc:40-89 `phrasePairIsOk`. -/
def categOk (s t : SPhrase) : Bool :=
  (collect s initMap).all fun e => match lk (collect t initMap) e.1 with
    | none => false
    | some n => !(e.2 != n)

/-- StrictCategPhrasePairFilter.cc:40-99 `phrasePairIsOk` (the maps it fills are not used). -/
def strictOk (s t : SPhrase) : Bool :=
  if s.any categs.contains || t.any categs.contains then decide (s = t) else true

/-! ### Training -/

/-- A sentence pair given to the model: `ns` is the source sentence with the null word. -/
structure Item where
  pars : PhrExtract.Pars
  brf : Bool
  ns : List String
  t : List String
  alig : WordAlig.Mat
  reps : Rat

/-- The words of an extracted pair. -/
def strs (l : List String) : SPhrase := l.map String.toList

/-- `PhrasePair::weight`. -/
def weight (p : PhrExtract.Phrase) : Rat := (p.num : Rat) / p.den

/-- _wbaIncrPhraseModel.cc:182-200 `storePhrasePairs`. -/
def storePhrasePairs (reps : Rat) : List PhrExtract.Phrase → St → St
  | [], st => st
  | p :: ps, st => storePhrasePairs reps ps (strIncrCountsOfEntry st (strs p.s) (strs p.t) (reps * weight p))

/-- _wbaIncrPhraseModel.cc:106-161 `extendModelFromPairPlusAlig`; `none`: undefined behaviour in the extraction.
`ns.size()-1` is unsigned. -/
def extendModelFromPairPlusAlig (st : St) (x : Item) : Option St :=
  if x.t.length < PhrExtract.maxSentLen ∧ x.ns ≠ [] ∧ x.ns.length - 1 < PhrExtract.maxSentLen then
    if x.brf = false then
      (PhrExtract.extract x.pars x.ns x.t x.alig).map fun v =>
        storePhrasePairs x.reps (v.filter fun p => categOk (strs p.s) (strs p.t)) st
    else
      (Srf.segmBased x.pars x.ns x.t x.alig).map fun v => storePhrasePairs x.reps v.2 st
  else some st

/-- _wbaIncrPhraseModel.cc:61-84 `extendModelFromAlignments` (on the sentence pairs of the alignment file) and 86-103
`extModelFromPairAligVec` (with vectors of the same size). -/
def extendModel : St → List Item → Option St
  | st, [] => some st
  | st, x :: xs => match extendModelFromPairPlusAlig st x with
    | none => none
    | some st' => extendModel st' xs

/-- _wbaIncrPhraseModel.cc:33-40 `generateWbaIncrPhraseModel`. -/
def generate (xs : List Item) : Option St := extendModel clear xs

/-! ### Printing -/

/-- WbaIncrPhraseModel.cc:53-58: one line. -/
def printLine (fmt : Rat → Str) (st : St) (t : List Nat) (e : List Nat × (Rat × Rat)) : Str :=
  (e.1.flatMap fun w => Vocab.wordIndexToString st.sv w ++ [' ']) ++ ['|', '|', '|'] ++
  (t.flatMap fun w => ' ' :: Vocab.wordIndexToString st.tv w) ++
  [' ', '|', '|', '|', ' '] ++ fmt e.2.1 ++ [' '] ++ fmt e.2.2 ++ ['\n']

/-- WbaIncrPhraseModel.cc:44-60: the lines of the targets visited. -/
def printTargets (fmt : Rat → Str) (st : St) : List (List Nat × Rat) → Option Str
  | [] => some []
  | x :: xs => match HatTable.getEntriesForTarget st.m x.1, printTargets fmt st xs with
    | some es, some r => some (es.1.flatMap (printLine fmt st x.1) ++ r)
    | _, _ => none

/-- WbaIncrPhraseModel.cc:34-62 `printTTable`. -/
def printTTable (fmt : Rat → Str) (st : St) : Option Str :=
  match HatTable.visit st.m with
  | none => none
  | some vs => printTargets fmt st vs

/-! ### Loading -/

def bars : Str := ['|', '|', '|']

/-- _incrPhraseModel.cc:361-365, 369-373: the loop that reads the words up to `|||`, from field `i` on; `fuel` bounds the
iterations. Result: (words, new `i`). -/
def readPhrase (l : Str) : Nat → Nat → SPhrase → SPhrase × Nat
  | 0, i, acc => (acc, i)
  | fuel + 1, i, acc =>
    if i ≤ Awk.getNF ' ' l ∧ Awk.dollar ' ' l i ≠ bars then readPhrase l fuel (i + 1) (acc ++ [Awk.dollar ' ' l i])
    else (acc, i)

/-- _incrPhraseModel.cc:356-392: one line of the file. `i<awk.NF-1` is a comparison of unsigned numbers, with `NF>1`. -/
def loadLine (atof : Str → Rat) (st : St) (l : Str) : St :=
  if Awk.getNF ' ' l > 1 then
    let a := readPhrase l (Awk.getNF ' ' l + 1) 1 []
    let b := readPhrase l (Awk.getNF ' ' l + 1) (a.2 + 1) []
    if b.2 < Awk.getNF ' ' l - 1 ∧ Awk.dollar ' ' l b.2 = bars ∧ a.1 ≠ [] ∧ b.1 ≠ [] then
      strAddTableEntry st a.1 b.1 (atof (Awk.dollar ' ' l (b.2 + 1))) (atof (Awk.dollar ' ' l (b.2 + 2)))
    else st
  else st

def loadLines (atof : Str → Rat) : List Str → St → St
  | [], st => st
  | l :: ls, st => loadLines atof ls (loadLine atof st l)

/-- _incrPhraseModel.cc:314-319 `load_ttable`: the first line makes the file be rejected. -/
def isCacheHeader (l : Str) : Bool :=
  Awk.getNF ' ' l == 4 && Awk.dollar ' ' l 1 == "****".toList && Awk.dollar ' ' l 2 == "cache".toList &&
  Awk.dollar ' ' l 3 == "ttable".toList

/-- _incrPhraseModel.cc:267-274 (the table is cleared, the vocabularies are not), 301-332 `load_ttable` and 335-397
`loadPlainTextTTable`, on the contents of an existing file: the state and whether THOT_OK is returned. -/
def loadTTable (atof : Str → Rat) (st : St) (file : Str) : St × Bool :=
  match Awk.readAll (file.length + 1) file with
  | [] => ({ st with m := [] }, true)
  | l :: ls => if isCacheHeader l then ({ st with m := [] }, false)
    else (loadLines atof (l :: ls) { st with m := [] }, true)

end Thot.PhrTrain
