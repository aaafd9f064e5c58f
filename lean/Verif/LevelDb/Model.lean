import Verif.Common.AMap
/-!
Model of `LevelDbPhraseTable` (src/phrase_models/LevelDbPhraseTable.{h,cc}) and of the key encodings shared with
`HatTriePhraseTable.cc`, `IncrLexLevelDbTable.cc` and `LevelDbNgramTable.cc`.

The database is a map from byte strings to values; LevelDB itself (files, write batches, iterators over snapshots) is
trusted to be a map ordered bytewise (its default comparator) and is not modelled. Bytes are natural numbers. Values are
the decimal form of an `int` in the code (`storeData`, `retrieveData` with `atoi`), here the integer itself. Counts are
rationals (float rounding and `int` overflow are not modelled).
-/
namespace Thot.LevelDb
open AMap

abbrev Phrase := List Nat
abbrev Bytes := List Nat

/-- LevelDbPhraseTable.cc:47-49 (also HatTriePhraseTable.cc:43-45): the loop over `j=nb-1..0` for one word. -/
def encWord : Nat → Nat → Bytes
  | 0, _ => []
  | nb + 1, w => (1 + w / 254 ^ nb % 254) :: encWord nb w

/-- LevelDbPhraseTable.cc:42-55 `vectorToString` (HatTriePhraseTable.cc:38-51, same code); `nb` is
WORD_INDEX_MODULO_BYTES, the base is 254. -/
def vectorToString (nb : Nat) (v : Phrase) : Bytes := v.flatMap (encWord nb)

/-- LevelDbPhraseTable.cc:65-67: the inner loop of `stringToVector` on the first `nb` bytes, in `unsigned int`
arithmetic: (word, remaining bytes); reading past the end of the string is undefined. -/
def decWord : Nat → Bytes → Option (Nat × Bytes)
  | 0, s => some (0, s)
  | _ + 1, [] => none
  | nb + 1, b :: s => match decWord nb s with
    | none => none
    | some (w, r) => some (((b - 1) * 254 ^ nb + w) % 2 ^ 32, r)

/-- LevelDbPhraseTable.cc:58-73 `stringToVector` (HatTriePhraseTable.cc:54-69): the outer loop; `fuel` bounds the number
of iterations (one per word, the length of the string is enough). -/
def decLoop (nb : Nat) : Nat → Bytes → Option Phrase
  | _, [] => some []
  | 0, _ :: _ => none
  | fuel + 1, b :: s => match decWord nb (b :: s) with
    | none => none
    | some (w, r) => (decLoop nb fuel r).map (w :: ·)

def stringToVector (nb : Nat) (s : Bytes) : Option Phrase := decLoop nb s.length s

/-- LevelDbNgramTable.cc:53-69: the same encoding with WORD_INDEX_MODULO_BYTES=3, preceded by the length plus one
(converted to `char`). -/
def ngramToString (v : Phrase) : Bytes := ((v.length + 1) % 256) :: vectorToString 3 v

/-- LevelDbNgramTable.cc:72-91. -/
def stringToNgram (s : Bytes) : Option Phrase := stringToVector 3 s.tail

/-! ### The phrase table -/

abbrev Db := List (Bytes × Int)

/-- LevelDbPhraseTable.h:28. -/
abbrev key (v : Phrase) : Bytes := vectorToString 3 v

/-- StatModelDefs.h:72 `UNUSED_WORD`. -/
abbrev unusedWord : Nat := 2

/-- LevelDbPhraseTable.cc:187-195 `encodeSrc`. -/
def encodeSrc (s : Phrase) : Phrase := unusedWord :: s

/-- LevelDbPhraseTable.cc:198-207 `encodeTrgSrc`. -/
def encodeTrgSrc (s t : Phrase) : Phrase := t ++ unusedWord :: s

/-- `(int) round(x)`: nearest integer, halves away from zero. -/
def roundHalfAway (x : Rat) : Int := if x < 0 then -((-x + 1/2).floor) else (x + 1/2).floor

/-- LevelDbPhraseTable.cc:105-119 `storeData` (write errors not modelled). -/
def storeData (db : Db) (v : Phrase) (c : Int) : Db := put db (key v) c

/-- LevelDbPhraseTable.cc:88-102, 329-338 `retrieveData`, `getInfo`: (count, found). -/
def getInfo (db : Db) (v : Phrase) : Rat × Bool := (((lk db (key v)).getD 0 : Int), (lk db (key v)).isSome)

/-- LevelDbPhraseTable.cc:278-282 `addSrcInfo`. -/
def addSrcInfo (db : Db) (s : Phrase) (c : Rat) : Db := storeData db (encodeSrc s) (roundHalfAway c)

/-- LevelDbPhraseTable.cc:285-290 `addSrcTrgInfo`. -/
def addSrcTrgInfo (db : Db) (s t : Phrase) (c : Rat) : Db := storeData db (encodeTrgSrc s t) (roundHalfAway c)

/-- LevelDbPhraseTable.cc:341-345, 472-476 `getSrcInfo`, `cSrc`. -/
def cSrc (db : Db) (s : Phrase) : Rat := (getInfo db (encodeSrc s)).1

/-- LevelDbPhraseTable.cc:348-353, 479-483 `getTrgInfo`, `cTrg`. -/
def cTrg (db : Db) (t : Phrase) : Rat := (getInfo db t).1

/-- LevelDbPhraseTable.cc:356-362, 464-469 `getSrcTrgInfo`, `cSrcTrg`. -/
def cSrcTrg (db : Db) (s t : Phrase) : Rat := (getInfo db (encodeTrgSrc s t)).1

/-- LevelDbPhraseTable.cc:268-275 `addTableEntry` with `inf=(cs,cst)`. -/
def addTableEntry (db : Db) (s t : Phrase) (cs cst : Rat) : Db :=
  let db1 := addSrcInfo db s cs
  let db2 := storeData db1 t (roundHalfAway cst)
  addSrcTrgInfo db2 s t (roundHalfAway cst : Int)

/-- LevelDbPhraseTable.cc:293-306 `incrCountsOfEntry`. -/
def incrCountsOfEntry (db : Db) (s t : Phrase) (c : Rat) : Db :=
  let sc := cSrc db s
  let tc := cTrg db t
  let stc := cSrcTrg db s t
  let db1 := addSrcInfo db s (sc + c)
  let db2 := storeData db1 t (roundHalfAway (tc + c))
  addSrcTrgInfo db2 s t (stc + c)

/-- LevelDbPhraseTable.cc:309-326 `infSrcTrg`. -/
def infSrcTrg (db : Db) (s t : Phrase) : (Rat × Rat) × Bool :=
  let (cs, found) := getInfo db (encodeSrc s)
  if found then
    let (cst, f) := getInfo db (encodeTrgSrc s t)
    ((cs, cst), f)
  else ((cs, 0), false)

/-- MathDefs.h:39 `EPSILON`. -/
def eps : Rat := 100 / 8388608

def rabs (x : Rat) : Rat := if x < 0 then -x else x

/-- LevelDbPhraseTable.cc:436-443: the body of the scan for one key: the entry inserted, if any. `vec.begin() +
start_vec.size()` past the end is undefined, as is an undecodable key. -/
def scanKey (db : Db) (t : Phrase) (k : Bytes) : Option (Option (Phrase × (Rat × Rat))) :=
  match stringToVector 3 k with
  | none => none
  | some vec =>
    if vec.length < t.length + 1 then none
    else
      let src := vec.drop (t.length + 1)
      let (ppi, found) := infSrcTrg db src t
      some (if !found || rabs ppi.1 < eps || rabs ppi.2 < eps then none else some (src, ppi))

/-- `mapM` in `Option`. -/
def mapOpt {α β : Type} (f : α → Option β) : List α → Option (List β)
  | [] => some []
  | a :: l => match f a with
    | none => none
    | some b => (mapOpt f l).map (b :: ·)

/-- LevelDbPhraseTable.cc:414-452 `getEntriesForTarget`: (entries, returned value). `Seek(start)` and the loop condition
visit the keys that are bytewise not before `start` and before `end`. -/
def getEntriesForTarget (db : Db) (t : Phrase) : Option (List (Phrase × (Rat × Rat)) × Bool) :=
  let ks := (db.map Prod.fst).filter (fun k => !decide (k < key (t ++ [unusedWord])) && decide (k < key (t ++ [3])))
  (mapOpt (scanKey db t) ks).map (fun es => (es.filterMap id, !ks.isEmpty))

/-- LevelDbPhraseTable.cc:365-380 `pTrgGivenSrc`. -/
def pTrgGivenSrc (db : Db) (s t : Phrase) : Rat :=
  if cSrcTrg db s t > 0 then (if cSrc db s > 0 then cSrcTrg db s t / cSrc db s else 1 / 10000000000) else 1 / 10000000000

/-- LevelDbPhraseTable.cc:390-404 `pSrcGivenTrg`. -/
def pSrcGivenTrg (db : Db) (s t : Phrase) : Rat :=
  if cSrcTrg db s t > 0 then (if cTrg db t > 0 then cSrcTrg db s t / cTrg db t else 1 / 10000000000) else 1 / 10000000000

/-- LevelDbPhraseTable.cc:486-496 `size`: the number of keys. -/
def size (db : Db) : Nat := db.length

/-- The modifying calls. -/
inductive Op where
  | add (s t : Phrase) (cs cst : Rat)
  | addSrc (s : Phrase) (c : Rat)
  | addSrcTrg (s t : Phrase) (c : Rat)
  | incr (s t : Phrase) (c : Rat)

def step (db : Db) : Op → Db
  | .add s t cs cst => addTableEntry db s t cs cst
  | .addSrc s c => addSrcInfo db s c
  | .addSrcTrg s t c => addSrcTrgInfo db s t c
  | .incr s t c => incrCountsOfEntry db s t c

/-- A history on a new database (`init`, LevelDbPhraseTable.cc:122-138). -/
def run (os : List Op) : Db := os.foldl step []

end Thot.LevelDb
