import Verif.LevelDb.Props
import Verif.Common.SMap
import Verif.Awk.Model

/-!
Model of `IncrLexLevelDbTable` (`/repo/src/sw_models/IncrLexLevelDbTable.cc`) and of `thot_lextable_to_leveldb.cc`.

A LevelDB database is a sorted map from byte strings to byte strings. A `float` is its bit pattern, a number below 2^32; a
`WordIndex` is a number below 2^32. Failures of LevelDB calls on an open database are not modelled.
-/
namespace Thot.LdbLex
open Thot.Awk (Str)
open Thot.LevelDb (Bytes vectorToString stringToVector encWord decWord mapOpt)

abbrev Db := List (Bytes × Bytes)

/-- `vectorToString`, with 5 bytes for each word. IncrLexLevelDbTable.cc:97-112, IncrLexLevelDbTable.h:30-31. -/
def enc (v : List Nat) : Bytes := vectorToString 5 v

/-- `floatToString`. IncrLexLevelDbTable.cc:162-176. -/
def floatToString (x : Nat) : Bytes := encWord 5 x

/-- `stringToFloat`; a value with less than 5 bytes is read out of bounds (`none`). IncrLexLevelDbTable.cc:146-159. -/
def stringToFloat (s : Bytes) : Option Nat := (decWord 5 s).map Prod.fst

/-- `retrieveData`: the value and the returned boolean. IncrLexLevelDbTable.cc:179-192. -/
def retrieve (db : Db) (v : List Nat) : Option (Nat × Bool) :=
  match SMap.get db (enc v) with
  | none => some (0, false)
  | some x => (stringToFloat x).map fun y => (y, true)

/-- `storeData`. IncrLexLevelDbTable.cc:195-207. -/
def store (db : Db) (v : List Nat) (x : Nat) : Db := SMap.ins db (enc v) (floatToString x)

/-- `setLexNumer`. IncrLexLevelDbTable.cc:210-222. -/
def setNumer (db : Db) (s t x : Nat) : Db := store db [t, s] x

/-- `getLexNumer`. IncrLexLevelDbTable.cc:225-237. -/
def getNumer (db : Db) (s t : Nat) : Option (Nat × Bool) := retrieve db [t, s]

/-- `setLexDenom`. IncrLexLevelDbTable.cc:240-247. -/
def setDenom (db : Db) (s x : Nat) : Db := store db [s] x

/-- `getLexDenom`. IncrLexLevelDbTable.cc:250-260. -/
def getDenom (db : Db) (s : Nat) : Option (Nat × Bool) := retrieve db [s]

/-- `setLexNumDen`. IncrLexLevelDbTable.cc:299-306. -/
def setNumDen (db : Db) (s t n d : Nat) : Db := setNumer (setDenom db s d) s t n

/-- The keys visited by the loop of `getTransForTarget`: from `(t)` to before `(t+1)`, with `unsigned` addition.
IncrLexLevelDbTable.cc:268-282. -/
def visited (db : Db) (t : Nat) : List Bytes :=
  (SMap.keys db).filter fun k => !decide (k < enc [t]) && decide (k < enc [(t + 1) % 2 ^ 32])

/-- `getTransForTarget`: the elements inserted into the set and the returned value. IncrLexLevelDbTable.cc:263-296. -/
def getTrans (db : Db) (t : Nat) : Option (List Nat × Bool) :=
  (mapOpt (stringToVector 5) (visited db t)).map fun vs =>
    let l := vs.filterMap fun v => if v.length > 1 then v.getLast? else none
    (l, !l.isEmpty)

/-- What `printBin` writes for an entry of the database: 32-bit words. IncrLexLevelDbTable.cc:438-460. -/
def printEntry (db : Db) (e : Bytes × Bytes) : Option (List Nat) :=
  match stringToVector 5 e.1 with
  | none => none
  | some [t, s] =>
    match stringToFloat e.2, getDenom db s with
    | some n, some d => some [s, t, n, d.1]
    | _, _ => none
  | some _ => some []

/-- `printBin`. IncrLexLevelDbTable.cc:414-464. -/
def printBin (db : Db) : Option (List Nat) := (mapOpt (printEntry db) db).map List.flatten

/-- The loop that reads a binary file, a sequence of 32-bit words: with an incomplete last record variables are used without a value
(`none`). IncrLexLevelDbTable.cc:350-369, thot_lextable_to_leveldb.cc:73-89. -/
def readLoop (db : Db) : List Nat → Option Db
  | [] => some db
  | s :: t :: n :: d :: r => readLoop (setNumDen db s t n d) r
  | _ => none

/-- The disk: databases and binary files. -/
structure Disk where
  dbs : Str → Option Db
  files : Str → Option (List Nat)

def setDb (d : Disk) (p : Str) (x : Db) : Disk := { d with dbs := fun q => if q = p then some x else d.dbs q }

/-- `ldbExtension` and `defaultExtension`. IncrLexLevelDbTable.cc:35-36. -/
def ldbExt : Str := "_ldb_hmm_lexnd".toList
def binExt : Str := ".hmm_lexnd".toList

/-- `load`: `loadLevelDb` and, if there is no database, `loadBin`, which creates an empty database before it looks for the file.
`false`: `THOT_ERROR`; `none`: undefined behaviour. The table of the object is the database with that name. LevelDB calls on existing
databases succeed. IncrLexLevelDbTable.cc:47-74, 309-401. -/
def load (d : Disk) (pre : Str) : Option (Disk × Bool) :=
  match d.dbs (pre ++ ldbExt) with
  | some _ => some (d, true)
  | none =>
    match d.files (pre ++ binExt) with
    | none => some (setDb d (pre ++ ldbExt) [], false)
    | some f => (readLoop [] f).map fun db => (setDb d (pre ++ ldbExt) db, true)

/-- `print` of the table `db`. IncrLexLevelDbTable.cc:404-464. -/
def print (d : Disk) (db : Db) (pre : Str) : Option Disk :=
  (printBin db).map fun f => { d with files := fun q => if q = pre ++ binExt then some f else d.files q }

/-- `thot_lextable_to_leveldb`: the database is created in any case. thot_lextable_to_leveldb.cc:57-92. -/
def convert (d : Disk) (input out : Str) : Option (Disk × Bool) :=
  match d.files input with
  | none => some (setDb d (out ++ ldbExt) [], false)
  | some f => (readLoop [] f).map fun db => (setDb d (out ++ ldbExt) db, true)

/-- Changes of a table. -/
inductive Op where
  | num (s t x : Nat)
  | den (s x : Nat)
  | both (s t n d : Nat)
  deriving DecidableEq

def step (db : Db) : Op → Db
  | .num s t x => setNumer db s t x
  | .den s x => setDenom db s x
  | .both s t n d => setNumDen db s t n d

def run (h : List Op) : Db := h.foldl step []

end Thot.LdbLex
