import Verif.LevelDb.Props
import Verif.Dict.Lemmas
import Verif.Vocab.Model

/-!
Model of the handling of LevelDB databases on disk by `LevelDbPhraseTable` and `LevelDbPhraseModel`
(`/repo/src/phrase_models/LevelDbPhraseTable.cc`, `LevelDbPhraseModel.cc`), and of `thot_ttable_to_leveldb.cc`.

The functions `load`, `drop` and `clear` of `LevelDbNgramTable` (LevelDbNgramTable.cc:204-255, 635-661), `LevelDbDict` (LevelDbDict.cc:98-141,
157-177) and `IncrLexLevelDbTable` (IncrLexLevelDbTable.cc:77-94, 518-540) handle their databases in the same way.

`D` is the type of contents of a database. `opens p` tells whether LevelDB can open (or create) the database `p`; destroying the
database succeeds. The files of vocabularies are given by a partial function; the other tables of the model are not modelled here.
-/
namespace Thot.LdbStore
open Thot.Awk (Str)
open Thot.Desc (fld nf linesOf)

/-- The disk and a table object: name of the database, and whether it is open. LevelDbPhraseTable.cc:31-39. -/
structure Tbl (D : Type) where
  disk : Str → Option D
  name : Str
  isOpen : Bool

section
variable {D W : Type} (empty : D) (opens : Str → Bool)

def setDb (d : Str → Option D) (p : Str) (x : D) : Str → Option D := fun q => if q = p then some x else d q

/-- `LevelDbPhraseTable::load`, with `create_if_missing`. LevelDbPhraseTable.cc:163-184, 33. -/
def tLoad (x : Tbl D) (p : Str) : Tbl D × Bool :=
  if opens p then (⟨setDb x.disk p ((x.disk p).getD empty), p, true⟩, true)
  else (⟨x.disk, p, false⟩, false)

/-- `LevelDbPhraseTable::clear`: destroys the database and creates it again; `none`: `exit`. LevelDbPhraseTable.cc:141-160, 516-536. -/
def tClear (x : Tbl D) : Option (Tbl D) :=
  if x.name = [] then some x
  else if opens x.name then some ⟨setDb x.disk x.name empty, x.name, true⟩
  else none

/-- `LevelDbPhraseTable::init`. LevelDbPhraseTable.cc:122-138. -/
def tInit (x : Tbl D) (p : Str) : Option (Tbl D × Bool) :=
  if (tLoad empty opens x p).2 then (tClear empty opens (tLoad empty opens x p).1).map fun y => (y, true)
  else some ((tLoad empty opens x p).1, false)

/-- A change of the contents (`storeData`); with no open database it is undefined behaviour. LevelDbPhraseTable.cc:105-119. -/
def tUpd (x : Tbl D) (f : D → D) : Option (Tbl D) :=
  if x.isOpen then some { x with disk := setDb x.disk x.name (f ((x.disk x.name).getD empty)) } else none

/-- `LevelDbPhraseModel`: table, vocabularies and `prefixOfModelFiles`. LevelDbPhraseModel.h:60-222. -/
structure Mdl (D W : Type) where
  tbl : Tbl D
  svoc : W
  tvoc : W
  pre : Str

/-- The name of the database of a model. LevelDbPhraseModel.cc:328-330. -/
def dbOf (pre : Str) : Str := pre ++ "_ldb_phrdict".toList

/-- `load_given_prefix`: `false` is `THOT_ERROR`. LevelDbPhraseModel.cc:307-356. -/
def mLoad (vocs : Str → Option W) (m : Mdl D W) (pre : Str) : Option (Mdl D W × Bool) :=
  match tClear empty opens m.tbl with
  | none => none
  | some y =>
    match vocs (pre ++ ".ldb_svcb".toList) with
    | none => some ({ m with tbl := y }, false)
    | some sv =>
      match vocs (pre ++ ".ldb_tvcb".toList) with
      | none => some ({ m with tbl := y, svoc := sv }, false)
      | some tv =>
        if (tLoad empty opens y (dbOf pre)).2 then some (⟨(tLoad empty opens y (dbOf pre)).1, sv, tv, pre⟩, true)
        else some (⟨(tLoad empty opens y (dbOf pre)).1, sv, tv, m.pre⟩, false)

/-- `clear`. LevelDbPhraseModel.cc:520-526. -/
def mClear (emptyVoc : W) (m : Mdl D W) : Option (Mdl D W) :=
  (tClear empty opens m.tbl).map fun y => ⟨y, emptyVoc, emptyVoc, []⟩

/-- `print`: `true` is `THOT_OK`; nothing is written. LevelDbPhraseModel.cc:365-379. -/
def mPrint (m : Mdl D W) (p : Str) : Bool := if m.pre = p then true else false

/-- Calls on a model. `upd` is any of the functions that change the table. -/
inductive Op (D : Type) where
  | load (p : Str)
  | clear
  | upd (f : D → D)

/-- `none`: the process ends, or undefined behaviour. -/
def mStep (vocs : Str → Option W) (emptyVoc : W) (m : Mdl D W) : Op D → Option (Mdl D W)
  | .load p => (mLoad empty opens vocs m p).map Prod.fst
  | .clear => mClear empty opens emptyVoc m
  | .upd f => (tUpd empty m.tbl f).map fun y => { m with tbl := y }

def mRun (vocs : Str → Option W) (emptyVoc : W) : List (Op D) → Mdl D W → Option (Mdl D W)
  | [], m => some m
  | o :: os, m => (mStep empty opens vocs emptyVoc m o).bind (mRun vocs emptyVoc os)

/-- A new model. LevelDbPhraseTable.cc:37-38. -/
def fresh (disk : Str → Option D) (emptyVoc : W) : Mdl D W := ⟨⟨disk, [], false⟩, emptyVoc, emptyVoc, []⟩

/-- `ThotDecoder::clearTrans` with the translation model that is not based on features: it clears its models one after another; `names` are the names of the
databases of those that use LevelDB. ThotDecoder.cc:2664-2694, _phrSwTransModel.h:305-316, _phraseBasedTransModel.h:528-537. -/
def clearTrans (disk : Str → Option D) : List Str → Option (Str → Option D)
  | [] => some disk
  | n :: ns => (tClear empty opens ⟨disk, n, true⟩).bind fun y => clearTrans y.disk ns

end

/-! ### `thot_ttable_to_leveldb` -/

/-- `extractEntryInfo`: source words, target words and the text of the joint count; `none`: `THOT_ERROR`. `i != NF-2` is an `unsigned`
comparison. thot_ttable_to_leveldb.cc:71-108, thot_ttable_to_fbdb.cc:71-108. -/
def extractT (l : Str) : Option (List Str × List Str × Str) :=
  let a := Dict.takeTo l (nf l + 1) 1
  if a.2 = nf l then none
  else
    let b := Dict.takeTo l (nf l + 1) (a.2 + 1)
    if b.2 + 2 ≠ nf l then none
    else some (a.1, b.1, fld l (nf l))

/-- `atoi`, converted to `WordIndex`; `none`: undefined. thot_ttable_to_leveldb.cc:85, 99. -/
def toIdx (w : Str) : Option Nat := (Vocab.atoi w).map Vocab.toWordIndex

/-- The words of a phrase. -/
def toPhrase : List Str → Option (List Nat)
  | [] => some []
  | w :: ws => match toIdx w, toPhrase ws with
    | some i, some r => some (i :: r)
    | _, _ => none

/-- The phrases and the count extracted from a line: `none` for `THOT_ERROR`; the inner `none` if a word is out of the range of `int`. -/
def entryOf (atof : Str → Rat) (l : Str) : Option (Option (List Nat × List Nat × Rat)) :=
  (extractT l).map fun e => match toPhrase e.1, toPhrase e.2.1 with
    | some s, some t => some (s, t, atof e.2.2)
    | _, _ => none

/-- The loop of `process_ttable` over the lines of the standard input. thot_ttable_to_leveldb.cc:129-148. -/
def toolLoop {D : Type} (atof : Str → Rat) (incr : D → List Nat → List Nat → Rat → D) : List Str → D → Option D
  | [], db => some db
  | l :: ls, db => match entryOf atof l with
    | none => toolLoop atof incr ls db
    | some none => none
    | some (some e) => toolLoop atof incr ls (incr db e.1 e.2.1 e.2.2)

/-- `thot_ttable_to_leveldb`, which starts with an empty database (`init`). thot_ttable_to_leveldb.cc:111-155. -/
def tool (atof : Str → Rat) (f : Str) : Option LevelDb.Db := toolLoop atof LevelDb.incrCountsOfEntry (linesOf f) []

end Thot.LdbStore
