import Verif.PhrTools.Runs
import Verif.Vocab.Props
import Verif.AligFile.Giza
/-!
Model of the map-reduce training of phrase models: `/repo/utils/phrase_models/thot_gen_phr_model_mr.sh` (the merge of the tables of the
chunks), `thot_merge_counts.sh` and `thot_cut_ttable.sh`.

A file is the list of its lines; the fields of a line are its words separated by blanks (`awk` also splits at tabs; words have none).
`fmt` is the text of a number printed with `%.8f` and `num` the value of a text; sums are exact. Training each chunk and the label
appended with `-l` are not modelled.
-/
namespace Thot.PhrTools

open Thot
open Thot.SentHandler (joinWords Word fields_join)
open Thot.Awk (fields)
open Thot.Vocab (showNat)

/-- The separator. -/
def sep : Str := ['|', '|', '|']

/-- `$(NF-k)`. -/
def fromEnd (f : List Str) (k : Nat) : Str := f.getD (f.length - 1 - k) []

/-- `src` (thot_merge_counts.sh:44-57). -/
def srcOf (f : List Str) : Str := joinWords (f.headD [] :: f.tail.takeWhile fun w => decide (w ≠ sep))

/-- The fields after the first separator. -/
def restOf (f : List Str) : List Str := (f.tail.dropWhile fun w => decide (w ≠ sep)).tail

/-- `trg` (thot_merge_counts.sh:58-65). -/
def trgOf (f : List Str) : Str := joinWords ((restOf f).headD [] :: (restOf f).tail.take ((restOf f).length - 5))

/-- The variables of the script. -/
structure MState where
  first : Option Str
  grp : List (Str × Rat)
  chunks : List Str
  cnt : Rat

section
variable (fmt : Rat → Str) (num : Str → Rat)

/-- The line printed (thot_merge_counts.sh:29, :37). -/
def outLine (s t : Str) (cs cst : Rat) : Str := s ++ " ||| ".toList ++ t ++ " ||| ".toList ++ fmt cs ++ ' ' :: fmt cst

/-- The loop of `print_counts` (thot_merge_counts.sh:19-37). -/
def printLoop (s : Str) (cs : Rat) (t : Str) (c : Rat) : List (Str × Rat) → List Str
  | [] => [outLine fmt s t cs c]
  | (t', c') :: r => if t = t' then printLoop s cs t (c + c') r else outLine fmt s t cs c :: printLoop s cs t' c' r

/-- `print_counts` (thot_merge_counts.sh:15-38); without entries the variables are empty. -/
def printCounts (st : MState) : List Str :=
  match st.grp with
  | [] => printLoop fmt (st.first.getD []) st.cnt [] 0 []
  | (t, c) :: r => printLoop fmt (st.first.getD []) st.cnt t c r

/-- The sum of the counts of the source phrase, once per chunk (thot_merge_counts.sh:101-105). -/
def addChunk (f : List Str) (st : MState) : MState :=
  if fromEnd f 0 ∈ st.chunks then st
  else { st with chunks := fromEnd f 0 :: st.chunks, cnt := st.cnt + num (fromEnd f 2) }

/-- The variables when a new source phrase begins (thot_merge_counts.sh:68-75, :84-92). -/
def newGroup (f : List Str) : MState :=
  { first := some (srcOf f), grp := [(trgOf f, num (fromEnd f 1))], chunks := [], cnt := 0 }

/-- The main loop (thot_merge_counts.sh:39-110). -/
def mergeLoop : MState → List Str → List Str
  | st, [] => printCounts fmt st
  | st, ln :: r =>
    match st.first with
    | none => mergeLoop (addChunk num (fields ' ' ln) (newGroup num (fields ' ' ln))) r
    | some s =>
      if s ≠ srcOf (fields ' ' ln) then
        printCounts fmt st ++ mergeLoop (addChunk num (fields ' ' ln) (newGroup num (fields ' ' ln))) r
      else
        mergeLoop (addChunk num (fields ' ' ln)
          { st with grp := st.grp ++ [(trgOf (fields ' ' ln), num (fromEnd (fields ' ' ln) 1))] }) r

/-- `thot_merge_counts`. -/
def mergeCounts (lines : List Str) : List Str := mergeLoop fmt num { first := none, grp := [], chunks := [], cnt := 0 } lines

/-- `thot_cut_ttable` (thot_cut_ttable.sh:46). -/
def cutTtable (c : Rat) (lines : List Str) : List Str := lines.filter fun ln => decide (num (fromEnd (fields ' ' ln) 1) > c)

/-- An entry of the table of a chunk. -/
structure Entry where
  src : List Str
  trg : List Str
  cs : Str
  cst : Str

/-- The line of an entry of a table. -/
def entryLine (e : Entry) : Str := joinWords (e.src ++ sep :: e.trg ++ [sep, e.cs, e.cst])

/-- The line with the number of the chunk appended (thot_gen_phr_model_mr.sh:198). -/
def countLine (cn : Nat) (ln : Str) : Str := ln ++ ' ' :: showNat cn

/-- The file `counts` (thot_gen_phr_model_mr.sh:190-205): chunks are numbered from `c`. -/
def countsFile : Nat → List (List Str) → List Str
  | _, [] => []
  | c, tab :: tabs => tab.map (countLine c) ++ countsFile (c + 1) tabs

/-- The table written (thot_gen_phr_model_mr.sh:210-214), when `sort` gives `sorted`. -/
def mergeTables (cutoff : Rat) (sorted : List Str) : List Str := cutTtable num cutoff (mergeCounts fmt num sorted)

end
end Thot.PhrTools
