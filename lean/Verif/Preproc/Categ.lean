import Verif.SentHandler.Props
import Verif.Vocab.Props
/-!
Model of the categorization of `/repo/utils/smt_preproc/thot_smt_preproc.py`: `areCategsPaired`, `categ_src_trg_annotation`,
`extract_alig_info`, `decategorize`.

`categorize_word` (which uses `isdigit`, `float` and regular expressions) is an arbitrary function `cz` of a word. The numbers of the
information about the hypothesis are naturals (`int` of another text raises an exception). An exception is `none`.
-/
namespace Thot.Preproc

open Thot
open Thot.SentHandler (joinWords)
open Thot.Awk (fields)

abbrev W := List Char

/-- `_global_categ_set` (thot_smt_preproc.py:13-16, 20). -/
def categs : List W := ["<common_word>".toList, "<number>".toList, "<digit>".toList, "<alfanum>".toList]

/-- `is_categ` (thot_smt_preproc.py:907-911). -/
def isCateg (w : W) : Bool := decide (w ∈ categs)

/-- `areCategsPaired` (thot_smt_preproc.py:780-801). -/
def paired (src trg : List W) : Bool := categs.all fun c => src.count c == trg.count c

/-- `categ_src_trg_annotation` (thot_smt_preproc.py:804-821), of the words. -/
def categAnn (cz : W → W) (src trg : List W) : List W × List W :=
  if paired (src.map cz) (trg.map cz) then (src.map cz, trg.map cz) else (src, trg)

/-- The words after the first mark `| name Segmentation:` (thot_smt_preproc.py:929-933, 962-966). -/
def afterMark (name : W) : List W → Option (List W)
  | a :: b :: c :: r => if a = ['|'] ∧ b = name ∧ c = "Segmentation:".toList then some r else afterMark name (b :: c :: r)
  | _ => none

/-- The pair of an opening parenthesis (thot_smt_preproc.py:939-940). -/
def segAt (r : List W) : List (Nat × Nat) :=
  match r with
  | x :: _ :: y :: _ => [(Vocab.atoiDigits 0 x, Vocab.atoiDigits 0 y)]
  | _ => []

/-- The loop of `obtain_source_segments` (thot_smt_preproc.py:937-946); `none` when there is no bar. -/
def scanSrc : List W → Option (List (Nat × Nat))
  | [] => none
  | w :: r =>
    if w = ['('] then (scanSrc r).map (segAt r ++ ·)
    else if w = ['|'] then some []
    else scanSrc r

/-- `obtain_source_segments` (thot_smt_preproc.py:923-952). -/
def srcSegs (hyp : List W) : List (Nat × Nat) :=
  match afterMark "Source".toList hyp with
  | some r => (scanSrc r).getD []
  | none => []

/-- The loop of `obtain_target_cuts` (thot_smt_preproc.py:970-977). -/
def scanTrg : List W → Option (List Nat)
  | [] => none
  | w :: r => if w ≠ ['|'] then (scanTrg r).map (Vocab.atoiDigits 0 w :: ·) else some []

/-- `obtain_target_cuts` (thot_smt_preproc.py:955-983). -/
def trgCuts (hyp : List W) : List Nat :=
  match afterMark "Target".toList hyp with
  | some r => (scanTrg r).getD []
  | none => []

/-- The scan of the cuts (thot_smt_preproc.py:1029-1039); `prev` is the cut before (0 for the first, as `trgpos+1>0`). Gives the index of the
cut and the limits of the segment; `none` when no cut is found, as the limits are then unbound (`UnboundLocalError`). -/
def scanCuts (p : Nat) : List Nat → Nat → Nat → Option (Nat × Nat × Nat)
  | [], _, _ => none
  | c :: cs, prev, k => if prev < p + 1 ∧ p + 1 ≤ c then some (k, prev, c) else scanCuts p cs c (k + 1)

/-- `extract_categ_words_of_segm` (thot_smt_preproc.py:986-996): the positions from `l` to before `r`; a word and its position. -/
def extractCateg (cz : W → W) (arr : List W) (l r : Nat) : Option (List (W × Nat)) :=
  if r ≤ l then some []
  else if arr.length < r then none
  else some ((((arr.drop l).take (r - l)).zipIdx l).filter fun x => isCateg x.1 || isCateg (cz x.1))

/-- The order of the word in its segment (thot_smt_preproc.py:1051-1057). -/
def orderOf (cur : W) (p : Nat) : List (W × Nat) → Nat → Nat
  | [], n => n
  | x :: xs, n => if x.2 = p then n else if x.1 = cur then orderOf cur p xs (n + 1) else orderOf cur p xs n

/-- The source word with that order (thot_smt_preproc.py:1059-1066). -/
def pick (cz : W → W) (cur : W) (order : Nat) : List (W × Nat) → Nat → W
  | [], _ => []
  | x :: xs, aux =>
    if cz x.1 = cur then (if aux = order then x.1 else pick cz cur order xs (aux + 1))
    else pick cz cur order xs aux

/-- The word or, when empty, the category (thot_smt_preproc.py:1069-1072). -/
def orCateg (w cur : W) : W := if w = [] then cur else w

/-- `decategorize_word` (thot_smt_preproc.py:1023-1074). -/
def decategWord (cz : W → W) (src trg : List W) (segs : List (Nat × Nat)) (cuts : List Nat) (p : Nat) (cur : W) : Option W := do
  let kc ← scanCuts p cuts 0 0
  let seg ← segs[kc.1]?
  let sw ← extractCateg cz src (seg.1 - 1) seg.2
  let tw ← extractCateg cz trg kc.2.1 kc.2.2
  some (orCateg (pick cz cur (orderOf cur p tw 0) sw 0) cur)

/-- A word of the target (thot_smt_preproc.py:1013-1016). -/
def decategAt (cz : W → W) (src trg : List W) (segs : List (Nat × Nat)) (cuts : List Nat) (x : W × Nat) : Option W :=
  if isCateg x.1 then decategWord cz src trg segs cuts x.2 x.1 else some x.1

/-- The words of the output. -/
def decategAll (cz : W → W) (src trg : List W) (segs : List (Nat × Nat)) (cuts : List Nat) : List (W × Nat) → Option (List W)
  | [] => some []
  | x :: xs =>
    match decategAt cz src trg segs cuts x, decategAll cz src trg segs cuts xs with
    | some w, some ws => some (w :: ws)
    | _, _ => none

/-- `decategorize` (thot_smt_preproc.py:999-1020). -/
def decategorize (cz : W → W) (sline tline iline : W) : Option W :=
  if srcSegs (fields ' ' iline) = [] ∨ trgCuts (fields ' ' iline) = [] ∨
      (srcSegs (fields ' ' iline)).length ≠ (trgCuts (fields ' ' iline)).length then some tline
  else (decategAll cz (fields ' ' sline) (fields ' ' tline) (srcSegs (fields ' ' iline)) (trgCuts (fields ' ' iline))
      ((fields ' ' tline).zipIdx)).map joinWords

end Thot.Preproc
