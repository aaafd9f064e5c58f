import Verif.SentHandler.Model
import Verif.Vocab.Model
/-!
Model of `SegLenTable` (`src/phrase_models/SegLenTable.cc`), the table with the probability of the number of segments.

Counts are rational numbers (no rounding). The two arrays are functions; an access outside `[0,101)` is undefined behaviour (`none`). Reading and
writing numbers (`atof`, `<<`) are parameters. A file that cannot be opened is `none`.
-/
namespace Thot.SegmLen

open Thot.Awk (Str)
open Thot.Vocab (showNat atoi)

/-- `MAX_SENTENCE_LENGTH`, PhraseDefs.h:46. -/
def maxLen : Nat := 101

/-- The arrays of `SegLenTable`, SegLenTable.h:72-73. -/
structure Tab where
  count : Nat → Nat → Rat
  margin : Nat → Rat

/-- `clear`, SegLenTable.cc:80-92. -/
def clear : Tab := ⟨fun _ _ => 0, fun _ => 0⟩

/-- `constantSegmLengthTable`, SegLenTable.cc:58-71. -/
def constant : Tab := ⟨fun _ _ => 1, fun _ => 0 + 1⟩

/-- `pk_tlen`, SegLenTable.cc:41-55. The test lets the index 101 through. -/
def pk (t : Tab) (tlen k : Nat) : Option Rat :=
  if tlen > maxLen ∨ k > maxLen then some 0
  else if tlen ≥ maxLen then none
  else if t.margin tlen = 0 then some 0
  else if k ≥ maxLen then none
  else some (t.count tlen k / t.margin tlen)

/-- `incrCountOf_tlenk`, SegLenTable.cc:95-98. -/
def incrTK (t : Tab) (tlen k : Nat) : Option Tab :=
  if tlen ≥ maxLen ∨ k ≥ maxLen then none
  else some { t with count := fun a b => if a = tlen ∧ b = k then t.count a b + 1 else t.count a b }

/-- `incrCountOf_tlen`, SegLenTable.cc:101-104. -/
def incrT (t : Tab) (tlen : Nat) : Option Tab :=
  if tlen ≥ maxLen then none
  else some { t with margin := fun a => if a = tlen then t.margin a + 1 else t.margin a }

/-- The two assignments of `load_seglentable`, SegLenTable.cc:130-131. -/
def setEntry (t : Tab) (i j : Nat) (x : Rat) : Tab :=
  ⟨fun a b => if a = i ∧ b = j then x else t.count a b, fun a => if a = i then t.margin a + x else t.margin a⟩

/-- Body of the loop of `load_seglentable` for a line with three fields, SegLenTable.cc:127-137. The comparison is on `int`. -/
def loadEntry (atof : Str → Rat) (t : Tab) (l : Str) : Option Tab :=
  match atoi (Awk.dollar ' ' l 1), atoi (Awk.dollar ' ' l 2) with
  | some i, some j =>
    if i < (maxLen : Int) ∧ j < (maxLen : Int) then
      if i < 0 ∨ j < 0 then none
      else some (setEntry t i.toNat j.toNat (atof (Awk.dollar ' ' l 3)))
    else some t
  | _, _ => none

/-- Loop of `load_seglentable`, SegLenTable.cc:123-139. -/
def loadLines (atof : Str → Rat) (t : Tab) : List Str → Option Tab
  | [] => some t
  | l :: ls =>
    match (if Awk.getNF ' ' l = 3 then loadEntry atof t l else some t) with
    | none => none
    | some t' => loadLines atof t' ls

/-- `load_seglentable`, SegLenTable.cc:107-143. -/
def load (atof : Str → Rat) : Option Str → Option Tab
  | none => some constant
  | some f => loadLines atof clear (Awk.readAll (f.length + 1) f)

/-- The line of an entry, SegLenTable.cc:156. -/
def entryLine (fmt : Rat → Str) (i j : Nat) (x : Rat) : Str := showNat i ++ ' ' :: (showNat j ++ ' ' :: fmt x)

/-- Inner loop of `printSegmLengthTable`, SegLenTable.cc:152-158. -/
def printRow (fmt : Rat → Str) (t : Tab) (i : Nat) : Str :=
  (List.range maxLen).flatMap fun j => if t.count i j > 0 then entryLine fmt i j (t.count i j) ++ ['\n'] else []

/-- `printSegmLengthTable`, SegLenTable.cc:146-159. -/
def print (fmt : Rat → Str) (t : Tab) : Str := (List.range maxLen).flatMap fun i => printRow fmt t i

/-- `SEGM_SIZE_PROB_SMOOTH`, PhraseDefs.h:45. -/
def smooth : Rat := 1 / 10000000

/-- `_incrPhraseModel::pk_tlen`, _incrPhraseModel.cc:161-168. -/
def modelPk (t : Tab) (tlen k : Nat) : Option Rat := (pk t tlen k).map fun p => if p < smooth then smooth else p

end Thot.SegmLen
