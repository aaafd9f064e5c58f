import Verif.Common.AMap
import Verif.Awk.Model
/-!
Model of `SingleWordVocab` (src/nlp_common/SingleWordVocab.cc).  The source and target halves are two instances
of the same code; one half is modelled.  `WordIndex` is `unsigned int`; overflow of the vocabulary size past
2^32 entries is not modelled.
-/
namespace Thot.Vocab

abbrev Str := List Char

/-- SingleWordVocab.h:88-98: `stringToSrcWordIndexMap`, `srcWordIndexMapToString`. -/
structure Voc where
  s2i : List (Str × Nat)
  i2s : List (Nat × Str)

/-- StatModelDefs.h:68-73. -/
def NULL_WORD : Nat := 0
def NULL_WORD_STR : Str := ['N', 'U', 'L', 'L']
def UNK_WORD : Nat := 1
def UNK_WORD_STR : Str := ['U', 'N', 'K', 'N', 'O', 'W', 'N', '_', 'W', 'O', 'R', 'D']
def UNUSED_WORD : Nat := 2
def UNUSED_WORD_STR : Str := ['<', 'U', 'N', 'U', 'S', 'E', 'D', '_', 'W', 'O', 'R', 'D', '>']

/-- The pair of assignments made in several places: `s2i[s]=i; i2s[i]=s`. -/
def setBoth (v : Voc) (s : Str) (i : Nat) : Voc := ⟨AMap.put v.s2i s i, AMap.put v.i2s i s⟩

/-- SingleWordVocab.cc:349-357 `clearSrcVocab` with 378-417 (`add_*_word_to_srcvoc`). -/
def clear : Voc :=
  setBoth (setBoth (setBoth ⟨[], []⟩ NULL_WORD_STR NULL_WORD) UNK_WORD_STR UNK_WORD) UNUSED_WORD_STR UNUSED_WORD

/-- SingleWordVocab.cc:61-64 `getSrcVocabSize`. -/
def size (v : Voc) : Nat := v.s2i.length

/-- SingleWordVocab.cc:66-76 `stringToSrcWordIndex`. -/
def stringToWordIndex (v : Voc) (s : Str) : Nat := (AMap.lk v.s2i s).getD UNK_WORD

/-- SingleWordVocab.cc:79-89 `wordIndexToSrcString`. -/
def wordIndexToString (v : Voc) (w : Nat) : Str := (AMap.lk v.i2s w).getD UNK_WORD_STR

/-- SingleWordVocab.cc:92-102 `existSrcSymbol`. -/
def existSymbol (v : Voc) (s : Str) : Bool := (AMap.lk v.s2i s).isSome

/-- SingleWordVocab.cc:120-137 `addSrcSymbol`. -/
def addSymbol (v : Voc) (s : Str) : Nat × Voc :=
  match AMap.lk v.s2i s with
  | some i => (i, v)
  | none => let i := v.s2i.length; (i, setBoth v s i)

/-- SingleWordVocab.cc:105-117 `strVectorToSrcIndexVector`. -/
def strVectorToIndexVector (v : Voc) : List Str → List Nat × Voc
  | [] => ([], v)
  | s :: ss =>
    let (i, v1) := addSymbol v s
    let (is, v2) := strVectorToIndexVector v1 ss
    (i :: is, v2)

/-- Decimal digit. -/
def digit (n : Nat) : Char := Char.ofNat (48 + n % 10)

/-- `ostream << unsigned`: decimal notation. -/
def showNat (n : Nat) : Str := if n < 10 then [digit n] else showNat (n / 10) ++ [digit n]
termination_by n
decreasing_by omega

/-- SingleWordVocab.cc:28-40 `operator<<`: one line `index word` per entry, in map iteration order. -/
def printVocab (entries : List (Str × Nat)) : Str :=
  entries.flatMap (fun e => (showNat e.2 ++ ' ' :: e.1) ++ ['\n'])

/-- C `isspace` in the "C" locale. -/
def isSpace (c : Char) : Bool := c = ' ' || c = '\t' || c = '\n' || c = '\x0b' || c = '\x0c' || c = '\r'

def isDig (c : Char) : Bool := 48 ≤ c.toNat && c.toNat ≤ 57

/-- The digit loop of `atoi`. -/
def atoiDigits (acc : Nat) : Str → Nat
  | [] => acc
  | c :: cs => if isDig c then atoiDigits (acc * 10 + (c.toNat - 48)) cs else acc

/-- The signed part of `atoi`. -/
def atoiSigned (s : Str) : Int :=
  match s with
  | '-' :: t => - (atoiDigits 0 t : Int)
  | '+' :: t => atoiDigits 0 t
  | t => atoiDigits 0 t

/-- C `atoi`; `none` when the value is not representable in `int` (undefined). -/
def atoi (s : Str) : Option Int :=
  let s := s.dropWhile isSpace
  let r := atoiSigned s
  if -2^31 ≤ r ∧ r < 2^31 then some r else none

/-- Conversion of `int` to `WordIndex` (`unsigned int`). -/
def toWordIndex (r : Int) : Nat := (r % 2^32).toNat

/-- Outcome of loading. -/
inductive LoadRes where
  | ok (v : Voc)
  | error (v : Voc)
  | undef

/-- SingleWordVocab.cc:160-174: the loop over the lines read. -/
def loadLines (v : Voc) : List Str → LoadRes
  | [] => .ok v
  | l :: ls =>
    if Awk.getNF ' ' l > 1 then
      if Awk.getNF ' ' l = 2 ∨ Awk.getNF ' ' l = 3 then
        match atoi (Awk.dollar ' ' l 1) with
        | none => .undef
        | some r => loadLines (setBoth v (Awk.dollar ' ' l 2) (toWordIndex r)) ls
      else .error v
    else loadLines v ls

/-- SingleWordVocab.cc:144-180 `loadGIZASrcVocab` on the contents of an existing file. The fuel exceeds the
number of lines. -/
def load (file : Str) : LoadRes := loadLines clear (Awk.readAll (file.length + 1) file)

/-- Any number of `addSrcSymbol` calls. -/
def addAll (v : Voc) (ws : List Str) : Voc := ws.foldl (fun v w => (addSymbol v w).2) v

end Thot.Vocab
