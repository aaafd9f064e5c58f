import Verif.LevelDb.Model
import Verif.LangModel.Model
import Verif.Vocab.Model
import Verif.Awk.Model
/-!
Model of `LevelDbNgramTable` (src/incr_models/LevelDbNgramTable.{h,cc}), the n-gram counts of a language model kept in a
LevelDB database, of the tool that fills it (thot_ngram_to_leveldb.cc) and of the vocabulary file passed between the tool
and the language model (vecx_x_incr_enc.h `load`).

The database is a map from byte strings to values, trusted to be ordered bytewise; open/write errors are not modelled.
Counts are rationals (`float` in the program). A count is stored as the text printed by `ostream << float` and read with
`atof`: `rnd c` is the number read back after printing `c` (six significant digits).
-/
namespace Thot.NgramDb
open AMap LevelDb

abbrev Db := List (Bytes × Rat)

/-- LevelDbNgramTable.cc:40-48: the key of the count of the empty history. -/
def nullKey : Bytes := [254, 254, 254]

/-- An open table: the database and `srcInfoNull` (LevelDbNgramTable.h). -/
structure Tbl where
  db : Db
  nul : Rat

/-- LevelDbNgramTable.cc:144-159 `storeData(key,count)`. -/
def storeKey (rnd : Rat → Rat) (db : Db) (k : Bytes) (c : Rat) : Db := put db k (rnd c)

/-- LevelDbNgramTable.cc:112-128 `retrieveData(key,count)`: (count, found). -/
def retrieveKey (db : Db) (k : Bytes) : Rat × Bool := ((lk db k).getD 0, (lk db k).isSome)

/-- LevelDbNgramTable.cc:162-177 `storeData(phrase,count)`. -/
def storeData (rnd : Rat → Rat) (tb : Tbl) (v : Phrase) (c : Rat) : Tbl :=
  if v.length = 0 then ⟨storeKey rnd tb.db nullKey c, c⟩ else { tb with db := storeKey rnd tb.db (ngramToString v) c }

/-- LevelDbNgramTable.cc:131-143, 367-378 `retrieveData(phrase,count)` and `getInfo`: (count, found). -/
def getInfo (tb : Tbl) (v : Phrase) : Rat × Bool :=
  if v.length = 0 then (tb.nul, true)
  else if (retrieveKey tb.db (ngramToString v)).2 then retrieveKey tb.db (ngramToString v) else (0, false)

/-- LevelDbNgramTable.cc:252-260 `getSrcTrg`. -/
def getSrcTrg (s : Phrase) (t : Nat) : Phrase := s ++ [t]

/-- LevelDbNgramTable.cc:319-323 `addSrcInfo`. -/
def addSrcInfo (rnd : Rat → Rat) (tb : Tbl) (s : Phrase) (c : Rat) : Tbl := storeData rnd tb s c

/-- LevelDbNgramTable.cc:326-331 `addSrcTrgInfo`. -/
def addSrcTrgInfo (rnd : Rat → Rat) (tb : Tbl) (s : Phrase) (t : Nat) (c : Rat) : Tbl :=
  storeData rnd tb (getSrcTrg s t) c

/-- LevelDbNgramTable.cc:310-316 `addTableEntry`. -/
def addTableEntry (rnd : Rat → Rat) (tb : Tbl) (s : Phrase) (t : Nat) (cs cst : Rat) : Tbl :=
  addSrcTrgInfo rnd (addSrcInfo rnd tb s cs) s t cst

/-- LevelDbNgramTable.cc:380-385, 526-531 `getSrcInfo`, `cSrc`. -/
def cSrc (tb : Tbl) (s : Phrase) : Rat := (getInfo tb s).1

/-- LevelDbNgramTable.cc:399-405, 518-523 `getSrcTrgInfo`, `cSrcTrg`. -/
def cSrcTrg (tb : Tbl) (s : Phrase) (t : Nat) : Rat := (getInfo tb (getSrcTrg s t)).1

/-- LevelDbNgramTable.cc:334-344 `incrCountsOfEntryLog` with `lc` the logarithm of `c`. -/
def incr (rnd : Rat → Rat) (tb : Tbl) (s : Phrase) (t : Nat) (c : Rat) : Tbl :=
  addSrcTrgInfo rnd tb s t (cSrcTrg tb s t + c)

/-- LevelDbNgramTable.cc:347-364 `infSrcTrg`. -/
def infSrcTrg (tb : Tbl) (s : Phrase) (t : Nat) : (Rat × Rat) × Bool :=
  if (getInfo tb s).2 then (((getInfo tb s).1, (getInfo tb (getSrcTrg s t)).1), (getInfo tb (getSrcTrg s t)).2)
  else (((getInfo tb s).1, 0), false)

/-- LevelDbNgramTable.cc:408-424 `pTrgGivenSrc`. -/
def pTrgGivenSrc (tb : Tbl) (s : Phrase) (t : Nat) : Rat :=
  if cSrcTrg tb s t > 0 then (if cSrc tb s > 0 then cSrcTrg tb s t / cSrc tb s else 0) else 0

/-- LevelDbNgramTable.cc:657-679 `begin` and 692-712 `operator++`: the entries visited from the first one of `l` on; the
entry of the empty history is passed over once. The order of the keys is left out. -/
def walk : Db → Db
  | [] => []
  | [e] => if e.1 = nullKey then [] else [e]
  | e :: e' :: r => if e.1 = nullKey then e' :: walk r else e :: walk (e' :: r)

/-- LevelDbNgramTable.cc:734-752 `operator*`: decode the key; an undecodable key is undefined. -/
def entryAt (e : Bytes × Rat) : Option (Phrase × Rat) := (stringToNgram e.1).map (fun v => (v, e.2))

/-- The whole iteration `for(iter=begin(); iter!=end(); iter++) *iter`. -/
def entries (tb : Tbl) : Option (List (Phrase × Rat)) := mapOpt entryAt (walk tb.db)

/-- LevelDbNgramTable.cc:475, 546: `x.first.size() > 1 && x.first.back() == t`. -/
def endsWith (t : Nat) (x : Phrase × Rat) : Bool := decide (x.1.length > 1) && x.1.getLast? == some t

/-- LevelDbNgramTable.cc:534-554 `cTrg`. -/
def cTrg (tb : Tbl) (t : Nat) : Option Rat :=
  (entries tb).map (fun l => l.foldl (fun acc x => if endsWith t x then acc + x.2 else acc) 0)

/-- LevelDbNgramTable.cc:460-487 `getEntriesForTarget`: (history, (c(history), c(history,t))), and the value returned. -/
def getEntriesForTarget (tb : Tbl) (t : Nat) : Option (List (Phrase × (Rat × Rat)) × Bool) :=
  (entries tb).map (fun l =>
    let es := (l.filter (endsWith t)).map (fun x => (x.1.dropLast, (cSrc tb x.1.dropLast, x.2)))
    (es, decide (es.length > 0)))

/-- StatModelDefs.h `SMALL_LG_NUM`. -/
def smallLgNum : Rat := -99999

/-- LevelDbNgramTable.cc:438-453 `pSrcGivenTrg`. -/
def pSrcGivenTrg (tb : Tbl) (s : Phrase) (t : Nat) : Option Rat :=
  if cSrcTrg tb s t > 0 then
    (cTrg tb t).map (fun c => if c > 0 then cSrcTrg tb s t / c else smallLgNum)
  else some smallLgNum

/-- LevelDbNgramTable.cc:503-505: `end_vec`; `s` empty is undefined (`end_vec[-1]`). -/
def bumpLast : Phrase → Option Phrase
  | [] => none
  | [w] => some [w + 1]
  | w :: w' :: s => (bumpLast (w' :: s)).map (w :: ·)

/-- LevelDbNgramTable.cc:520-536: the body of the scan for one key: the entry inserted, if any. -/
def scanKey (n : Nat) (sc : Rat) (e : Bytes × Rat) : Option (Option (Nat × (Rat × Rat))) :=
  match stringToNgram e.1 with
  | none => none
  | some v =>
    some (if n + 1 = v.length ∧ v.length > 1 then
      (match v.getLast? with
        | none => none
        | some t => if rabs e.2 < eps then none else some (t, (sc, e.2)))
      else none)

/-- The condition of the scan of LevelDbNgramTable.cc:518. -/
def inRange (lo hi : Bytes) (e : Bytes × Rat) : Bool := !decide (e.1 < lo) && decide (e.1 < hi)

/-- LevelDbNgramTable.cc:490-545 `getEntriesForSource`: (word, (c(s), c(s,word))), and the value returned. `Seek(start)`
and the loop condition visit the keys bytewise not before `start` and before `end`. -/
def getEntriesForSource (tb : Tbl) (s : Phrase) : Option (List (Nat × (Rat × Rat)) × Bool) :=
  match bumpLast s with
  | none => none
  | some e =>
    (mapOpt (scanKey s.length (cSrc tb s))
        (tb.db.filter (inRange (ngramToString (s ++ [0])) (ngramToString (e ++ [0]))))).map
      (fun es => (es.filterMap id, decide ((es.filterMap id).length > 0)))

/-- LevelDbNgramTable.cc:579-589 `size`. -/
def size (tb : Tbl) : Nat := (walk tb.db).length

/-- LevelDbNgramTable.cc:612-637 `clear` (after a database has been opened): the old database is destroyed. -/
def cleared (rnd : Rat → Rat) : Tbl := ⟨storeKey rnd [] nullKey 0, 0⟩

/-- LevelDbNgramTable.cc:221-249 `load` of the database `db`. -/
def load (rnd : Rat → Rat) (db : Db) : Tbl :=
  ⟨if (retrieveKey db nullKey).1 = 0 then storeKey rnd db nullKey (retrieveKey db nullKey).1 else db,
    (retrieveKey db nullKey).1⟩

/-- LevelDbNgramTable.cc:180-197 `init`: open, then clear. -/
def init (rnd : Rat → Rat) : Tbl := cleared rnd

/-- The modifying calls; `reload` closes the table and opens its database again. -/
inductive Op where
  | add (s : Phrase) (t : Nat) (cs cst : Rat)
  | addSrc (s : Phrase) (c : Rat)
  | addSrcTrg (s : Phrase) (t : Nat) (c : Rat)
  | incr (s : Phrase) (t : Nat) (c : Rat)
  | reload
  | clear

def step (rnd : Rat → Rat) (tb : Tbl) : Op → Tbl
  | .add s t cs cst => addTableEntry rnd tb s t cs cst
  | .addSrc s c => addSrcInfo rnd tb s c
  | .addSrcTrg s t c => addSrcTrgInfo rnd tb s t c
  | .incr s t c => incr rnd tb s t c
  | .reload => load rnd tb.db
  | .clear => cleared rnd

/-- A history on a new database. -/
def run (rnd : Rat → Rat) (os : List Op) : Tbl := os.foldl (step rnd) (init rnd)

/-! ### thot_ngram_to_leveldb -/

abbrev Word := List Char
abbrev VocMap := List (Word × Nat)

/-- thot_ngram_to_leveldb.cc:83-97 `getSymbolId`. -/
def getSymbolId (m : VocMap) (w : Word) : Nat × VocMap :=
  match lk m w with
  | none => (m.length, put m w m.length)
  | some i => (i, m)

/-- thot_ngram_to_leveldb.cc:112-116: the loop over the words of the history. -/
def getIds : VocMap → List Word → List Nat × VocMap
  | m, [] => ([], m)
  | m, w :: ws => ((getSymbolId m w).1 :: (getIds (getSymbolId m w).2 ws).1, (getIds (getSymbolId m w).2 ws).2)

/-- thot_ngram_to_leveldb.cc:148-152. -/
def initVoc : VocMap :=
  put (put (put (put [] LangModel.unkStr 0) LangModel.bosStr 1) LangModel.eosStr 2) LangModel.spStr 3

/-- thot_ngram_to_leveldb.cc:113: the first `NF-3` fields of a line. -/
def histWords (l : Word) : List Word := (List.range (Awk.getNF ' ' l - 3)).map (fun i => Awk.dollar ' ' l (i + 1))

/-- thot_ngram_to_leveldb.cc:155-172 with 100-127 `extractEntryInfo`: one line read. `atof` is a parameter. -/
def lineStep (rnd : Rat → Rat) (atof : Word → Rat) (x : VocMap × Tbl) (l : Word) : VocMap × Tbl :=
  if Awk.getNF ' ' l < 3 then x
  else
    let src := getIds x.1 (histWords l)
    let trg := getSymbolId src.2 (Awk.dollar ' ' l (Awk.getNF ' ' l - 2))
    (trg.2, addTableEntry rnd x.2 src.1 trg.1 (atof (Awk.dollar ' ' l (Awk.getNF ' ' l - 1)))
      (atof (Awk.dollar ' ' l (Awk.getNF ' ' l))))

/-- thot_ngram_to_leveldb.cc:130-189 `process_ttable` on the text of the standard input. -/
def ngramToLevelDb (rnd : Rat → Rat) (atof : Word → Rat) (inp : Word) : VocMap × Tbl :=
  (Awk.readAll (inp.length + 1) inp).foldl (lineStep rnd atof) (initVoc, init rnd)

/-- thot_ngram_to_leveldb.cc:67-80 `saveVocabulary`, for the words in any order (the program: sorted). -/
def vocText (m : VocMap) : Word := m.flatMap (fun e => e.1 ++ ' ' :: (Vocab.showNat e.2 ++ ['\n']))

/-! ### Reading the vocabulary -/

/-- `istream >> string`: skip white space, take what follows up to white space; `none` when there is nothing (the stream
fails and the string keeps its value). -/
def readTok (inp : Word) : Option (Word × Word) :=
  match inp.dropWhile Vocab.isSpace with
  | [] => none
  | c :: r => some ((c :: r).takeWhile (fun d => !Vocab.isSpace d), (c :: r).dropWhile (fun d => !Vocab.isSpace d))

/-- `istream >> unsigned int` when characters remain (signs are not modelled): the value stored, whether the stream is
still good, and the rest. No digit: 0 and failure; out of range: the maximum and failure. -/
def readNum (inp : Word) : Nat × Bool × Word :=
  let s := inp.dropWhile Vocab.isSpace
  let d := s.takeWhile Vocab.isDig
  if d = [] then (0, false, s)
  else if Vocab.atoiDigits 0 d < 2 ^ 32 then (Vocab.atoiDigits 0 d, true, s.dropWhile Vocab.isDig)
  else (2 ^ 32 - 1, false, s.dropWhile Vocab.isDig)

/-- vecx_x_incr_enc.h:296-303: `while(ifile) { ifile>>hx>>x; hx_to_x[hx]=x; x_to_hx[x]=hx; }`; `prev` is what `hx` and
`x` hold (`none`: `x` not initialised, storing it is undefined). When the word cannot be read, `x` is not read either; when
only the number is missing at the end of the file `x` keeps its value too. The fuel exceeds the number of tokens. -/
def encLoop : Nat → LangModel.Enc → Option (Word × Nat) → Word → Option LangModel.Enc
  | 0, e, _, _ => some e
  | fuel + 1, e, prev, inp =>
    match readTok inp with
    | none => prev.map (fun p => e.addCode p.1 p.2)
    | some (w, r) =>
      if r.dropWhile Vocab.isSpace = [] then prev.map (fun p => e.addCode w p.2)
      else
        let n := readNum r
        let e' := e.addCode w n.1
        if n.2.1 then encLoop fuel e' (some (w, n.1)) n.2.2 else some e'

/-- vecx_x_incr_enc.h:282-306 `load` of the text of an existing file into the encoder `e`. -/
def encLoad (e : LangModel.Enc) (text : Word) : Option LangModel.Enc := encLoop (text.length + 1) e none text

end Thot.NgramDb
