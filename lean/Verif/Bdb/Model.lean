import Verif.LdbStore.Model
import Verif.Common.SMap
import Mathlib.Data.Prod.Lex

/-!
Model of `FastBdbPhraseTable` (`/repo/src/phrase_models/FastBdbPhraseTable.h`, `FastBdbPhraseTable.cc`) and of `thot_ttable_to_fbdb.cc`.

A Berkeley DB B-tree is a map whose keys are ordered by the comparison function given to it (`static_phr_dict_cmp_func`), which compares the
pairs of phrases decoded from two keys: the model orders keys by the pair (target phrase, source phrase) with the order that
this function computes (`cmpKeys`). Reads and writes of the database succeed; word indices are below `MAX_VOCAB_SIZE`; counts are rational numbers
(`Count` is a float). The environment and the cache are not modelled.
-/
namespace Thot.Bdb
open Thot.Awk (Str)
open Thot.Desc (linesOf)

abbrev Phrase := List Nat

/-- (target, source), ordered lexicographically. -/
abbrev Key := Phrase ×ₗ Phrase

/-- `PhrDictValue`: `count` and `auxCount`. FastBdbPhraseTable.h:128-139. -/
structure Val where
  count : Rat
  aux : Rat
deriving DecidableEq, Repr

abbrev Db := List (Key × Val)

/-- The loops of the comparison function over the words of two phrases. FastBdbPhraseTable.cc:68-79, 82-93. -/
def cmpVec : Phrase → Phrase → Int
  | [], [] => 0
  | [], _ :: _ => -1
  | _ :: _, [] => 1
  | x :: a, y :: b => if x < y then -1 else if y < x then 1 else cmpVec a b

/-- `static_phr_dict_cmp_func` on decoded keys: target phrases first. FastBdbPhraseTable.cc:39-96. -/
def cmpKeys (k1 k2 : Phrase × Phrase) : Int :=
  if cmpVec k1.2 k2.2 ≠ 0 then cmpVec k1.2 k2.2 else cmpVec k1.1 k2.1

/-- `getPhrPair`: the source phrase ends at the first `UNUSED_WORD` (2). FastBdbPhraseTable.h:76-101. -/
def decode (ws : List Nat) : Phrase × Phrase := (ws.takeWhile (· ≠ 2), ws.drop ((ws.takeWhile (· ≠ 2)).length + 1))

/-- `setPhrPair`: the words of the key; `none`: `THOT_ERROR`. MAX_PHR_DICT_KEY_SIZE_SBDB is 21. FastBdbPhraseTable.h:52, 102-124. -/
def words (s t : Phrase) : Option (List Nat) := if s.length + t.length + 1 ≤ 21 then some (s ++ 2 :: t) else none

/-- The place of a key in the B-tree. -/
def keyOf (ws : List Nat) : Key := toLex ((decode ws).2, (decode ws).1)

/-- `retrieveDataForPhrDict`. FastBdbPhraseTable.cc:180-208. -/
def retrieve (db : Db) (s t : Phrase) : Option Val := (words s t).bind fun ws => SMap.get db (keyOf ws)

/-- `putDataForPhrDict`: `auxCount` is 0; the database is unchanged on error. FastBdbPhraseTable.cc:211-235. -/
def putData (db : Db) (s t : Phrase) (c : Rat) : Db :=
  match words s t with
  | none => db
  | some ws => SMap.ins db (keyOf ws) ⟨c, 0⟩

/-- `incrPhrDictCount`. FastBdbPhraseTable.cc:238-262. -/
def incrPhr (db : Db) (s t : Phrase) (c : Rat) : Db :=
  match retrieve db s t with
  | none => putData db s t c
  | some v => putData db s t (v.count + c)

/-- `setFastSearchAvailableFlag`, `resetFastSearchAvailableFlag`: the record of the pair of empty phrases. FastBdbPhraseTable.cc:587-599. -/
def setFlag (db : Db) (x : Rat) : Db := putData db [] [] x

/-- `getFastSearchAvailableFlag`. FastBdbPhraseTable.cc:601-616. -/
def flag (db : Db) : Bool := match retrieve db [] [] with
  | some v => decide (v.count > 0)
  | none => false

/-- `incrCountsOfEntry`. FastBdbPhraseTable.cc:265-276. -/
def incrCounts (db : Db) (s t : Phrase) (c : Rat) : Db :=
  incrPhr (incrPhr (incrPhr (setFlag db 0) s t c) s [] c) [] t c

/-- The body of the loop of `enableFastSearch` for one record. FastBdbPhraseTable.cc:299-330. -/
def refresh (db : Db) (e : Key × Val) : Key × Val :=
  if (ofLex e.1).2 ≠ [] ∧ (ofLex e.1).1 ≠ [] then
    match retrieve db (ofLex e.1).2 [] with
    | some v => (e.1, ⟨e.2.count, v.count⟩)
    | none => e
  else e

/-- `enableFastSearch`. FastBdbPhraseTable.cc:279-339. -/
def enable (db : Db) : Db := if flag db then db else setFlag (db.map (refresh db)) 1

/-- `getSrcInfo`, `getTrgInfo`, `getSrcTrgInfo`: (count, found). FastBdbPhraseTable.cc:342-401. -/
def found (v : Option Val) : Rat × Bool := match v with
  | none => (0, false)
  | some v => (v.count, true)
def getSrc (db : Db) (s : Phrase) : Rat × Bool := found (retrieve db s [])
def getTrg (db : Db) (t : Phrase) : Rat × Bool := found (retrieve db [] t)
def getSrcTrg (db : Db) (s t : Phrase) : Rat × Bool := found (retrieve db s t)

/-- The words in the buffer of the cursor after reading a key into it. FastBdbPhraseTable.cc:150-161. -/
def overlay (old new : List Nat) : List Nat := new ++ old.drop new.length

/-- The pair decoded from the buffer after reading a record with a buffer that held `old`. -/
def readKey (old : List Nat) (k : Key) : Phrase × Phrase := decode (overlay old ((ofLex k).2 ++ 2 :: (ofLex k).1))

/-- The loop of `getEntriesForTarget` from the second record on, whose buffer was cleared. FastBdbPhraseTable.cc:442-464. -/
def scan (t : Phrase) (tc : Rat) : Db → List (Phrase × (Rat × Rat))
  | [] => []
  | e :: r =>
    if (readKey [] e.1).2 = t then
      (if (readKey [] e.1).1 ≠ [] then [((readKey [] e.1).1, (tc, e.2.count))] else []) ++ scan t tc r
    else []

/-- `getEntriesForTarget`. The cursor is set at the first record that is not before that of the target phrase (if the phrase is too long the
buffer is empty, which decodes as a pair of empty phrases). FastBdbPhraseTable.cc:404-474. -/
def getEntries (db : Db) (t : Phrase) : List (Phrase × (Rat × Rat)) × Bool :=
  let ws := (words [] t).getD []
  match db.filter (fun e => ! decide (e.1 < keyOf ws)) with
  | [] => ([], false)
  | e :: r =>
    let l := if (readKey ws e.1).2 = t then
        (if (readKey ws e.1).1 ≠ [] then [((readKey ws e.1).1, (e.2.count, e.2.count))] else []) ++ scan t e.2.count r
      else []
    (l, !l.isEmpty)

/-- PHRASE_PROB_SMOOTH. PhraseDefs.h:43. -/
def smooth : Rat := 1 / 10000000000

/-- Division of floats; `none`: infinite or not a number. -/
def fdiv (a b : Rat) : Option Rat := if b = 0 then none else some (a / b)

/-- `pTrgGivenSrc`. FastBdbPhraseTable.cc:477-508. -/
def pTrgGivenSrc (db : Db) (s t : Phrase) : Option Rat :=
  if flag db then
    match retrieve db s t with
    | none => some smooth
    | some v => fdiv v.count v.aux
  else if (getSrcTrg db s t).1 > 0 then
    if (getSrc db s).1 > 0 then fdiv (getSrcTrg db s t).1 (getSrc db s).1 else some smooth
  else some smooth

/-- `pSrcGivenTrg`. FastBdbPhraseTable.cc:518-535. -/
def pSrcGivenTrg (db : Db) (s t : Phrase) : Option Rat :=
  if (getSrcTrg db s t).1 > 0 then
    if (getTrg db t).1 > 0 then fdiv (getSrcTrg db s t).1 (getTrg db t).1 else some smooth
  else some smooth

/-- `init`: opens the database, which is created if it does not exist, and defines the flag. FastBdbPhraseTable.cc:107-147. -/
def init (old : Option Db) : Db :=
  if (retrieve (old.getD []) [] []).isSome then old.getD [] else setFlag (old.getD []) 0

/-- Calls on a table. -/
inductive Op where
  | incr (s t : Phrase) (c : Rat)
  | enable

def step (db : Db) : Op → Db
  | .incr s t c => incrCounts db s t c
  | .enable => enable db

/-- A history on a new database. -/
def run (h : List Op) : Db := h.foldl step (init none)

/-- `thot_ttable_to_fbdb` with the database that exists at the output prefix, if any. thot_ttable_to_fbdb.cc:111-142. -/
def tool (num : Str → Rat) (old : Option Db) (f : Str) : Option Db :=
  (LdbStore.toolLoop num incrCounts (linesOf f) (init old)).map enable

end Thot.Bdb
