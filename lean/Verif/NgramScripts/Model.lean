import Verif.PhrTools.MergeProps
import Verif.Common.AMap
/-!
Model of the scripts that count n-grams: `/repo/utils/incr_models/thot_get_ngram_counts.sh`, `thot_get_ngram_counts_mr.sh` and
`thot_merge_ngram_counts.sh`.

A file is the list of its lines; the fields of a line are its words separated by blanks (`awk` also splits at tabs; words have none).
Arrays are association lists; `for(i in freq)` visits the elements in an order that is not specified: it is any permutation of the array.
Counts are natural numbers (`awk` uses doubles). The limit of `split -a 4` (26^4 fragments) is not modelled.
-/
namespace Thot.NgramScripts

open Thot
open Thot.SentHandler (joinWords Word fields_join)
open Thot.Awk (fields)
open Thot.Vocab (showNat)
open Thot.AMap (lk put)

abbrev Str := List Char

/-- The value of a text of digits. -/
def num (s : Str) : Nat := Vocab.atoiDigits 0 s

/-! ### thot_get_ngram_counts.sh -/

/-- The body of the loop over `z` (thot_get_ngram_counts.sh:51-70); `f` are the fields of the line. -/
def cadStep (f : List Str) (cad : Str) (z : Nat) : Str :=
  if z = 0 then "<s>".toList
  else if z = f.length + 1 then cad ++ " </s>".toList
  else if cad = [] then f.getD (z - 1) []
  else cad ++ ' ' :: f.getD (z - 1) []

/-- The first value of `z` (thot_get_ngram_counts.sh:48-49). -/
def firstZ (i j : Nat) : Nat := if j + 1 ≥ i then j + 1 - i else 0

/-- `cad` after the loop over `z` (thot_get_ngram_counts.sh:47-70). -/
def cad (f : List Str) (i j : Nat) : Str := (List.range' (firstZ i j) (j + 1 - firstZ i j)).foldl (cadStep f) []

/-- The first value of `j` (thot_get_ngram_counts.sh:43-44). -/
def leftmost (i : Nat) : Nat := if i = 1 then 1 else i - 1

/-- `rightmost` (thot_get_ngram_counts.sh:41-42). -/
def rightmost (nf i : Nat) : Nat := if i = 1 then nf else nf + 1

/-- The texts counted for a line (thot_get_ngram_counts.sh:39-76), in order. -/
def keys (n : Nat) (f : List Str) : List Str :=
  (List.range' 1 n).flatMap fun i => (List.range' (leftmost i) (rightmost f.length i + 1 - leftmost i)).map fun j => cad f i j

/-- `++freq[cad]` (thot_get_ngram_counts.sh:71-75). -/
def bump (freq : List (Str × Nat)) (k : Str) : List (Str × Nat) :=
  match lk freq k with
  | none => put freq k 1
  | some c => put freq k (c + 1)

/-- The variables of the script. -/
structure CSt where
  words : Nat
  sents : Nat
  freq : List (Str × Nat)

/-- The rule for each line (thot_get_ngram_counts.sh:35-78). -/
def addLine (n : Nat) (st : CSt) (ln : Str) : CSt :=
  { words := st.words + ((fields ' ' ln).length + 2), sents := st.sents + 1, freq := (keys n (fields ' ' ln)).foldl bump st.freq }

/-- The variables at the end, with the symbols added (thot_get_ngram_counts.sh:80-83). -/
def countAll (n : Nat) (lines : List Str) : CSt :=
  let st := lines.foldl (addLine n) { words := 0, sents := 0, freq := [] }
  { st with freq := put (put st.freq "<s>".toList st.sents) "</s>".toList st.sents }

/-- The first number printed (thot_get_ngram_counts.sh:92-104): the fields joined again give the text of the history. -/
def histCount (st : CSt) (k : Str) : Nat :=
  if (fields ' ' k).length = 1 then st.words else (lk st.freq (joinWords (fields ' ' k).dropLast)).getD 0

/-- The line printed for an element of the array (thot_get_ngram_counts.sh:85-105). -/
def printLine (st : CSt) (e : Str × Nat) : Str :=
  ((fields ' ' e.1).map fun w => w ++ [' ']).flatten ++ showNat (histCount st e.1) ++ ' ' :: showNat e.2

/-- The possible outputs of `thot_get_ngram_counts`. -/
def IsOutput (n : Nat) (lines out : List Str) : Prop :=
  ∃ order : List (Str × Nat), order.Perm (countAll n lines).freq ∧ out = order.map (printLine (countAll n lines))

/-! ### -unk -/

/-- The loop over the words of a line (thot_get_ngram_counts.sh:9-22); gives the vocabulary and the words written. -/
def unkWords : List Str → List Str → List Str × List Str
  | vocab, [] => (vocab, [])
  | vocab, w :: ws =>
    if w ∈ vocab then ((unkWords vocab ws).1, w :: (unkWords vocab ws).2)
    else ((unkWords (w :: vocab) ws).1, "<unk>".toList :: (unkWords (w :: vocab) ws).2)

/-- `replace_first_word_occurrence_by_unk` (thot_get_ngram_counts.sh:6-24, thot_get_ngram_counts_mr.sh:12-30). -/
def unkLines : List Str → List Str → List Str
  | _, [] => []
  | vocab, ln :: r => joinWords (unkWords vocab (fields ' ' ln)).2 :: unkLines (unkWords vocab (fields ' ' ln)).1 r

/-! ### thot_merge_ngram_counts.sh -/

/-- `$(NF-k)`. -/
def fromEnd (f : List Str) (k : Nat) : Str := f.getD (f.length - 1 - k) []

/-- `src` (thot_merge_ngram_counts.sh:19-33). -/
def srcOf (f : List Str) : Str := if f.length = 4 then [] else joinWords (f.headD [] :: f.tail.take (f.length - 5))

/-- `trg` (thot_merge_ngram_counts.sh:19-36). -/
def trgOf (f : List Str) : Str := if f.length = 4 then f.getD 0 [] else f.getD (max 2 (f.length - 3) - 1) []

/-- The variables of the script. -/
structure MSt where
  first : Str
  grp : List (Str × Nat)
  chunks : List Str
  cnt : Nat

/-- The line printed (thot_merge_ngram_counts.sh:65-66). -/
def outLine (s t : Str) (cs cst : Nat) : Str :=
  if s = [] then t ++ ' ' :: (showNat cs ++ ' ' :: showNat cst) else s ++ ' ' :: (t ++ ' ' :: (showNat cs ++ ' ' :: showNat cst))

/-- The loop that prints the counts (thot_merge_ngram_counts.sh:57-73, :104-120). -/
def printLoop (s : Str) (cs : Nat) (t : Str) (c : Nat) : List (Str × Nat) → List Str
  | [] => [outLine s t cs c]
  | (t', c') :: r => if t = t' then printLoop s cs t (c + c') r else outLine s t cs c :: printLoop s cs t' c' r

/-- The counts of a history (thot_merge_ngram_counts.sh:54-73, :101-120). -/
def printCounts (st : MSt) : List Str :=
  match st.grp with
  | [] => printLoop st.first st.cnt [] 0 []
  | (t, c) :: r => printLoop st.first st.cnt t c r

/-- The count of the history, once per chunk (thot_merge_ngram_counts.sh:93-97). -/
def addChunk (f : List Str) (st : MSt) : MSt :=
  if fromEnd f 0 ∈ st.chunks then st
  else { st with chunks := fromEnd f 0 :: st.chunks, cnt := st.cnt + num (fromEnd f 2) }

/-- The rules (thot_merge_ngram_counts.sh:14-121). -/
def mergeLoop : MSt → List Str → List Str
  | st, [] => printCounts st
  | st, ln :: r =>
    if st.cnt = 0 then
      mergeLoop (addChunk (fields ' ' ln)
        { st with first := srcOf (fields ' ' ln), grp := [(trgOf (fields ' ' ln), num (fromEnd (fields ' ' ln) 1))] }) r
    else if st.first ≠ srcOf (fields ' ' ln) then
      printCounts st ++ mergeLoop (addChunk (fields ' ' ln)
        { first := srcOf (fields ' ' ln), grp := [(trgOf (fields ' ' ln), num (fromEnd (fields ' ' ln) 1))], chunks := [], cnt := 0 }) r
    else
      mergeLoop (addChunk (fields ' ' ln) { st with grp := st.grp ++ [(trgOf (fields ' ' ln), num (fromEnd (fields ' ' ln) 1))] }) r

/-- `thot_merge_ngram_counts`. -/
def mergeCounts (lines : List Str) : List Str := mergeLoop { first := [], grp := [], chunks := [], cnt := 0 } lines

/-! ### thot_get_ngram_counts_mr.sh -/

/-- `split -l k` (thot_get_ngram_counts_mr.sh:194). -/
def split (k : Nat) : Nat → List Str → List (List Str)
  | 0, _ => []
  | _ + 1, [] => []
  | fuel + 1, ln :: r => (ln :: r).take k :: split k fuel ((ln :: r).drop k)

/-- The number of the fragment appended (thot_get_ngram_counts_mr.sh:200-201). -/
def countLine (cn : Nat) (ln : Str) : Str := ln ++ ' ' :: showNat cn

/-- The file `counts` (thot_get_ngram_counts_mr.sh:196-206). -/
def countsFile : Nat → List (List Str) → List Str
  | _, [] => []
  | c, o :: os => o.map (countLine c) ++ countsFile (c + 1) os

/-- The number of fields put before the line (thot_get_ngram_counts_mr.sh:41). -/
def addLen (ln : Str) : Str := showNat (fields ' ' ln).length ++ ' ' :: ln

/-- The number of fields removed (thot_get_ngram_counts_mr.sh:43). -/
def dropLen (ln : Str) : Str :=
  ((fields ' ' ln).tail.dropLast.map fun w => w ++ [' ']).flatten ++ showNat (num ((fields ' ' ln).getLastD []))

/-- The outputs of `thot_get_ngram_counts` for the fragments. -/
def Outputs (n : Nat) : List (List Str) → List (List Str) → Prop
  | [], [] => True
  | frag :: frags, o :: os => IsOutput n frag o ∧ Outputs n frags os
  | _, _ => False

/-- The possible outputs of `thot_get_ngram_counts_mr` (thot_get_ngram_counts_mr.sh:194-209) with fragments of `k` lines: each fragment is
counted and `sort` puts the lines in order. -/
def IsOutputMr (n k : Nat) (lines out : List Str) : Prop :=
  ∃ outs : List (List Str), Outputs n (split k lines.length lines) outs ∧
    ∃ sorted, PhrTools.IsSort sorted ((countsFile 1 outs).map addLen) ∧ out = mergeCounts (sorted.map dropLen)

end Thot.NgramScripts
