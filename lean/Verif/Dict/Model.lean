import Verif.Common.SMap
import Verif.Desc.Props

/-!
Model of the dictionary features: `/repo/src/stack_dec/DictFeat.h`, `OnTheFlyDictFeat.h`, `LevelDbDictFeat.h`,
`LevelDbDict.cc` and the tool `thot_dict_to_leveldb.cc`.

Strings are lists of characters compared by code (bytes), a text file is its list of lines read by `AwkInputStream`
(`Desc.linesOf`). Scores are an arbitrary type `S`; `atof`, the printing of a score with `<<` and the conversion of the
stored text back (`atof` and a cast to `float`) are arbitrary functions. LevelDB is a sorted map that never fails. The functions `extensionScore`
of the three classes are the function `Feat.extPhr` of `Verif.Feat.Model` applied to `scorePhrasePairUnweighted`.
-/
namespace Thot.Dict
open Thot.Awk (Str)
open Thot.Desc (fld nf linesOf)

abbrev Phrase := List Str

/-- The field that separates the parts of an entry. -/
def bars : Str := "|||".toList

/-! ### Entries of a dictionary file -/

/-- The two loops `for(; i <= NF; ++i) if(dollar(i)=="|||") break; else push_back(dollar(i))`: the words read and the
final value of `i`. The first argument is a bound of the number of iterations. DictFeat.h:156-162, 169-175;
thot_dict_to_leveldb.cc:80-86, 93-99. -/
def takeTo (l : Str) : Nat → Nat → Phrase × Nat
  | 0, i => ([], i)
  | n + 1, i =>
    if i ≤ nf l then
      if fld l i = bars then ([], i)
      else (fld l i :: (takeTo l n (i + 1)).1, (takeTo l n (i + 1)).2)
    else ([], i)

/-- What `extractEntryInfo` leaves in its output variables: the phrases, and the text of the score when it returns `THOT_OK`.
`i != NF-1` is an `unsigned` comparison. DictFeat.h:147-183, thot_dict_to_leveldb.cc:71-107. -/
def extractEntry (l : Str) : Phrase × Phrase × Option Str :=
  let a := takeTo l (nf l + 1) 1
  if a.2 = nf l then (a.1, [], none)
  else
    let b := takeTo l (nf l + 1) (a.2 + 1)
    if b.2 + 1 ≠ nf l then (a.1, b.1, none)
    else (a.1, b.1, some (fld l (nf l)))

/-! ### `DictFeat` -/

/-- `Dict`: a map of maps. DictFeat.h:84-85, OnTheFlyDictFeat.h:95-96. -/
abbrev Dict (V : Type) := List (Phrase × List (Phrase × V))

/-- `insertEntry`. DictFeat.h:187-205. The same function is `addTransOption` of OnTheFlyDictFeat.h:199-223, with a pair as value. -/
def insertEntry {V : Type} (d : Dict V) (s t : Phrase) (v : V) : Dict V :=
  match SMap.get d s with
  | none => SMap.ins d s (SMap.ins [] t v)
  | some o => SMap.ins d s (SMap.ins o t v)

/-- `dict.find(s)`, then `find(t)`. DictFeat.h:215-229, OnTheFlyDictFeat.h:118-140, 167-195. -/
def find {V : Type} (d : Dict V) (s t : Phrase) : Option V :=
  match SMap.get d s with
  | none => none
  | some o => SMap.get o t

/-- `obtainTransOptions`. DictFeat.h:233-249, OnTheFlyDictFeat.h:144-163. -/
def options {V : Type} (d : Dict V) (s : Phrase) : List Phrase :=
  match SMap.get d s with
  | none => []
  | some o => SMap.keys o

/-- `load`: the value returned by `extractEntryInfo` is ignored; a score that was never assigned is `none` (an
indeterminate value). DictFeat.h:119-143. -/
def load {S : Type} (atof : Str → S) (f : Str) : Dict (Option S) :=
  (linesOf f).foldl (fun d l => insertEntry d (extractEntry l).1 (extractEntry l).2.1 ((extractEntry l).2.2.map atof)) []

/-- `scorePhrasePairUnweighted` of `DictFeat` (`none`: an indeterminate score is returned); `smooth` is `FEAT_LGPROB_SMOOTH`.
DictFeat.h:215-229. -/
def score {S : Type} (smooth : S) (d : Dict (Option S)) (s t : Phrase) : Option S :=
  match find d s t with
  | none => some smooth
  | some v => v

/-! ### `OnTheFlyDictFeat` -/

/-- The functions that change the dictionary. OnTheFlyDictFeat.h:199-230. -/
inductive Op (S : Type) where
  | add (s t : Phrase) (score : S) (info : Str)
  | clear

/-- `addTransOption`, `clearDict`. OnTheFlyDictFeat.h:199-230. -/
def step {S : Type} (d : Dict (S × Str)) : Op S → Dict (S × Str)
  | .add s t v info => insertEntry d s t (v, info)
  | .clear => []

def run {S : Type} (h : List (Op S)) : Dict (S × Str) := h.foldl step []

/-- `scorePhrasePairUnweighted`; `zero` is `ONTHEFLY_DICT_SMOOTHING_SCORE`. OnTheFlyDictFeat.h:118-140. -/
def scoreFly {S : Type} (zero : S) (d : Dict (S × Str)) (s t : Phrase) : S :=
  match find d s t with
  | none => zero
  | some v => v.1

/-- `getTransOptInfo`: the information and `found`. OnTheFlyDictFeat.h:167-195. -/
def info {S : Type} (d : Dict (S × Str)) (s t : Phrase) : Str × Bool :=
  match find d s t with
  | none => ([], false)
  | some v => (v.2, true)

/-! ### `LevelDbDict` -/

/-- The database: byte strings to byte strings. -/
abbrev Db := List (Str × Str)

/-- `LEVELDBDICT_PHR_SEP`, `LEVELDBDICT_PHR_SEP_NEXT`. LevelDbDict.h:51-52. -/
def sep : Str := ['\x01']
def sepNext : Str := ['\x02']

/-- `encodeSrcTrgPhrases` and `stringVectorToString`. LevelDbDict.cc:191-200, StrProcUtils.cc:72-86. -/
def key (s t : Phrase) : Str := StrProc.stringVectorToString (s ++ [sep] ++ t)

/-- `addDictEntry`, `storeData`. LevelDbDict.cc:62-76, 203-208. -/
def addDb {S : Type} (prn : S → Str) (db : Db) (s t : Phrase) (v : S) : Db := SMap.ins db (key s t) (prn v)

/-- `getScore` (`found`: `some`); `rd` is `atof` followed by the cast to `float`. LevelDbDict.cc:42-59, 211-222. -/
def getScore {S : Type} (rd : Str → S) (db : Db) (s t : Phrase) : Option S := (SMap.get db (key s t)).map rd

/-- Positions visited by `for(it->Seek(start); it->Valid() && key < end; it->Next())`. LevelDbDict.cc:247. -/
def scan (start fin : Str) (db : Db) : List Str := ((SMap.keys db).dropWhile (fun k => decide (k < start))).takeWhile (fun k => decide (k < fin))

/-- LevelDbDict.cc:249-251: the words of the key after the first `n`; undefined (`none`) when the key has fewer words. -/
def decode (n : Nat) (k : Str) : Option Phrase :=
  if n ≤ (StrProc.stringToStringVector k).length then some ((StrProc.stringToStringVector k).drop n) else none

/-- All the results, or undefined behaviour. -/
def sequence {α β : Type} (f : α → Option β) : List α → Option (List β)
  | [] => some []
  | a :: r => match f a, sequence f r with
    | some b, some bs => some (b :: bs)
    | _, _ => none

/-- `getTransOptsForSource` and `obtainTransOptions`. LevelDbDict.cc:225-259, LevelDbDictFeat.h:149-153. -/
def optionsDb (db : Db) (s : Phrase) : Option (List Phrase) :=
  sequence (decode (s.length + 1))
    (scan (StrProc.stringVectorToString (s ++ [sep])) (StrProc.stringVectorToString (s ++ [sepNext])) db)

/-- `scorePhrasePairUnweighted` of `LevelDbDictFeat`. LevelDbDictFeat.h:136-145. -/
def scoreDb {S : Type} (rd : Str → S) (smooth : S) (db : Db) (s t : Phrase) : S :=
  match getScore rd db s t with
  | none => smooth
  | some v => v

/-- `size`: the number of steps of an iteration over the keys. LevelDbDict.cc:144-154, 275-330. -/
def sizeDb (db : Db) : Nat := (SMap.keys db).foldl (fun n _ => n + 1) 0

/-- The loop of `thot_dict_to_leveldb` over the lines of the standard input, on a new database. LevelDbDict.cc:79-95,
thot_dict_to_leveldb.cc:110-153. -/
def tool {S : Type} (atof : Str → S) (prn : S → Str) (f : Str) : Db :=
  (linesOf f).foldl (fun db l => match (extractEntry l).2.2 with
    | none => db
    | some x => addDb prn db (extractEntry l).1 (extractEntry l).2.1 (atof x)) []

end Thot.Dict
