import Verif.PhrTools.MergeProps
import Verif.Common.AMap
import Verif.Meta.Check
/-!
Model of the tools for n-best list files: `/repo/utils/error_correction/thot_rescore_nbest.sh`, `thot_obtain_best_trans_from_nbl.sh`,
`thot_augment_nblist.sh`, `thot_remove_nbl_component.sh`, `thot_merge_nbest_list.sh`, and
`/repo/utils/stack_dec/thot_get_nblist_segm_info.py`, `thot_filter_nblist.sh`.

A file is the list of its lines. Words are separated by blanks (`awk` and `split()` also split at tabs; there are none). `num` is the value
of a text for `awk`, `conv` the text of a number converted by `awk` (`CONVFMT`), `fmtF` the text printed with `%f`. Sums are exact.
-/
namespace Thot.NbTools

open Thot
open Thot.SentHandler (joinWords)
open Thot.Awk (fields)
open Thot.PhrTools (leText)
open Thot.Vocab (showNat)

abbrev W := List Char

/-- `|||`. -/
def bars : W := ['|', '|', '|']
/-- The field separator ` ||| `. -/
def fsep : W := [' ', '|', '|', '|', ' ']

/-- One more character in front of the first piece. -/
def consHead (c : Char) : List W → List W
  | [] => [[c]]
  | p :: ps => (c :: p) :: ps

/-- `split` of Python and the fields of `awk` with a separator of several characters; the number is of characters of a separator found. -/
def splitGo (sep : W) : Nat → W → List W
  | _, [] => [[]]
  | k + 1, _ :: r => splitGo sep k r
  | 0, c :: r => if sep.isPrefixOf (c :: r) then [] :: splitGo sep (sep.length - 1) r else consHead c (splitGo sep 0 r)

def splitOn (sep : W) (s : W) : List W := splitGo sep 0 s

section
variable (num : W → Rat) (conv fmtF : Rat → W)

/-! ### Rescoring -/

/-- The loop over the weights, `k` the number of the field before the first feature (thot_rescore_nbest.sh:27-30). -/
def scoreLoop (f : List W) : List W → Nat → Rat → Rat
  | [], _, acc => acc
  | w :: ws, k, acc => scoreLoop f ws (k + 1) (acc + num (f.getD k []) * num w)

/-- `newscore` (thot_rescore_nbest.sh:26-30): feature `i` is field `i+2`. -/
def newScore (weights : W) (f : List W) : Rat := scoreLoop num f (fields ' ' weights) 2 0

/-- A line with the new score as first field (thot_rescore_nbest.sh:31-32). -/
def rescoreLine (weights : W) (ln : W) : W :=
  joinWords (conv (newScore num weights (fields ' ' ln)) :: (fields ' ' ln).tail)

/-- `thot_rescore_nbest` (thot_rescore_nbest.sh:14-34). -/
def rescore (weights : W) : List W → List W
  | [] => []
  | _ :: ls => ("# ".toList ++ weights) :: ls.map (rescoreLine num conv weights)

/-! ### Best translation -/

def isDigit (c : Char) : Bool := decide ('0' ≤ c ∧ c ≤ '9')
def digits (s : W) : W := s.takeWhile isDigit
def natOf (s : W) : Nat := s.foldl (fun n c => 10 * n + (c.toNat - 48)) 0

/-- The number without sign that a text begins with. -/
def magnitude (s : W) : Rat :=
  match s.dropWhile isDigit with
  | '.' :: r => (natOf (digits s ++ digits r) : Rat) / (10 ^ (digits r).length : Nat)
  | _ => natOf (digits s)

/-- The key of `sort -n`: sign, digits and decimals at the beginning (no exponent). -/
def sortNum (s : W) : Rat :=
  match s.dropWhile fun c => c == ' ' with
  | '-' :: r => - magnitude r
  | r => magnitude r

/-- The order of `sort -k1nr`: by the number in descending order, and by the text if equal. -/
def nrLe (a b : W) : Bool := decide (sortNum b < sortNum a) || (decide (sortNum a = sortNum b) && leText a b)

/-- `get_trans` (thot_obtain_best_trans_from_nbl.sh:7-20). -/
def getTrans (ln : W) : W := joinWords ((fields ' ' ln).reverse.takeWhile fun w => decide (w ≠ bars)).reverse

/-- `thot_obtain_best_trans_from_nbl` (thot_obtain_best_trans_from_nbl.sh:22-31): the lines printed. -/
def bestTrans (weights : W) (nbl : List W) : List W :=
  ((((rescore num conv weights nbl).tail).mergeSort nrLe).take 1).map getTrans

/-! ### New component -/

/-- The last of the words of a text. -/
def lastWord (s : W) : W := (fields ' ' s).getLastD []

/-- The weights of the header (thot_augment_nblist.sh:36-41). -/
def headerWeights (h : W) : List W := (Awk.cut ',' h).map lastWord

/-- The loop of the score (thot_augment_nblist.sh:46-49); a missing weight is zero. -/
def dotLoop (ws : List W) : List W → Nat → Rat → Rat
  | [], _, acc => acc
  | f :: fs, k, acc => dotLoop ws fs (k + 1) (acc + num (ws.getD k []) * num f)

/-- An entry (thot_augment_nblist.sh:44-57); nothing is printed if it has not three or four fields. -/
def augLine (ws : List W) (ln scr : W) : List W :=
  let sc := fmtF (dotLoop num ws (fields ' ' ((splitOn fsep ln).getD 1 [])) 0 0 + num scr)
  match splitOn fsep ln with
  | [_, f, a] => [sc ++ fsep ++ f ++ ' ' :: scr ++ fsep ++ a]
  | [_, f, a, b] => [sc ++ fsep ++ f ++ ' ' :: scr ++ fsep ++ a ++ fsep ++ b]
  | _ => []

/-- The entries; `scrs` the first fields of the lines of the file of scores (thot_augment_nblist.sh:26-31). -/
def augLoop (ws : List W) : List W → List W → List W
  | [], _ => []
  | ln :: ls, scrs => augLine num fmtF ws ln (scrs.headD []) ++ augLoop ws ls scrs.tail

/-- `thot_augment_nblist` (thot_augment_nblist.sh:24-59). -/
def augment (wname : W) (scrfile : List W) : List W → List W
  | [] => []
  | h :: ls =>
    (((splitOn fsep h).headD [] ++ " , ".toList ++ wname ++ " 1".toList) ::
      augLoop num fmtF (headerWeights ((splitOn fsep h).headD [])) ls (scrfile.map fun s => (splitOn fsep s).headD []))

/-! ### Removing a component -/

/-- The word before the last one. -/
def prevWord (s : W) : W := (fields ' ' s).getD ((fields ' ' s).length - 2) []

/-- Names and weights of the header (thot_remove_nbl_component.sh:33-41). -/
def headerPairs (h : W) : List (W × W) := (splitOn " , ".toList ((splitOn fsep h).headD [])).map fun p => (prevWord p, lastWord p)

/-- `removed_weight_idx` (thot_remove_nbl_component.sh:32, 39-40), from zero: the last one with the name. -/
def removedIdx (wname : W) : List (W × W) → Nat → Option Nat → Option Nat
  | [], _, r => r
  | p :: ps, k, r => removedIdx wname ps (k + 1) (if p.1 = wname then some k else r)

/-- `is_last` (thot_remove_nbl_component.sh:49-56), `n` the number of weights. -/
def isLast (rm : Option Nat) (n i : Nat) : Bool := decide (i + 1 = n ∨ (i + 2 = n ∧ rm = some (n - 1)))

/-- The header printed (thot_remove_nbl_component.sh:43-61). -/
def headLoop (rm : Option Nat) (n : Nat) : List (W × W) → Nat → W
  | [], _ => []
  | p :: ps, i =>
    if rm = some i then headLoop rm n ps (i + 1)
    else ' ' :: p.1 ++ ' ' :: p.2 ++ (if isLast rm n i then [] else " ,".toList) ++ headLoop rm n ps (i + 1)

/-- The new score (thot_remove_nbl_component.sh:66-71). -/
def remLoop (rm : Option Nat) (ws : List W) : List W → Nat → Rat → Rat
  | [], _, acc => acc
  | f :: fs, k, acc => remLoop rm ws fs (k + 1) (if rm = some k then acc else acc + num (ws.getD k []) * num f)

/-- The features printed (thot_remove_nbl_component.sh:73-79). -/
def featLoop (rm : Option Nat) : List W → Nat → W
  | [], _ => []
  | f :: fs, k => (if rm = some k then [] else ' ' :: fmtF (num f)) ++ featLoop rm fs (k + 1)

/-- An entry (thot_remove_nbl_component.sh:65-83). -/
def remLine (rm : Option Nat) (ws : List W) (ln : W) : W :=
  fmtF (remLoop num rm ws (fields ' ' ((splitOn fsep ln).getD 1 [])) 0 0) ++ " |||".toList ++
    featLoop num fmtF rm (fields ' ' ((splitOn fsep ln).getD 1 [])) 0 ++ fsep ++ (splitOn fsep ln).getD 2 [] ++
    (if (splitOn fsep ln).length = 4 then fsep ++ (splitOn fsep ln).getD 3 [] else [])

/-- `thot_remove_nbl_component` (thot_remove_nbl_component.sh:26-85). -/
def remComp (compname : W) : List W → List W
  | [] => []
  | h :: ls =>
    let ps := headerPairs h
    let rm := removedIdx (compname ++ ['w']) ps 0 none
    ('#' :: headLoop rm ps.length ps 0) :: ls.map (remLine num fmtF rm (ps.map Prod.snd))

end

/-! ### Merging -/

/-- `obtain_nbl_weight_names` (thot_merge_nbest_list.sh:7-28). -/
def weightNames (nbl : List W) : W := joinWords ((headerPairs (nbl.headD [])).map Prod.fst)

/-- `print_nblist_header` (thot_merge_nbest_list.sh:41-54), the names being the words of the text. -/
def mergeHeader : List W → W
  | [] => []
  | [n] => n ++ " -".toList
  | n :: ns => n ++ " - , ".toList ++ mergeHeader ns

/-- The entries of the two files without score (thot_merge_nbest_list.sh:59). -/
def noScore (ls : List W) : List W :=
  (ls.filter fun ln => decide ((fields ' ' ln).headD [] ≠ ['#'])).map fun ln => joinWords (['-'] :: (fields ' ' ln).tail)

/-- `uniq`. -/
def uniq : List W → List W
  | [] => []
  | [a] => [a]
  | a :: b :: l => if a = b then uniq (b :: l) else a :: uniq (b :: l)

/-- `thot_merge_nbest_list` (thot_merge_nbest_list.sh:64-97): the lines of the standard output. That the lists have the same weights is
tested, but only the message depends on it. -/
def mergeNbl (n1 n2 : List W) : List W :=
  ("# ".toList ++ mergeHeader (fields ' ' (weightNames n1))) :: uniq ((noScore (n1 ++ n2)).mergeSort leText)

/-! ### Segmentation -/

/-- `make_key` (thot_get_nblist_segm_info.py:16-17). -/
def arrow : W := ['-', '>']
def mkKey (o d : W) : W := o ++ arrow ++ d

/-- `load_wg_info` (thot_get_nblist_segm_info.py:20-32); `none` is the `IndexError` of a line with less than two words. -/
def loadWg : List W → List (W × W) → Option (List (W × W))
  | [], m => some m
  | ln :: ls, m =>
    match fields ' ' ((splitOn bars ln).headD []) with
    | o :: d :: _ => loadWg ls (AMap.put m (mkKey o d) ((splitOn bars ln).getLastD []))
    | _ => none

/-- `load_idx_info` (thot_get_nblist_segm_info.py:35-44). -/
def loadIdx : List W → List (W × W) → Option (List (W × W))
  | [], m => some m
  | ln :: ls, m =>
    match fields ' ' ln with
    | s :: c :: _ => loadIdx ls (AMap.put m s c)
    | _ => none

/-- `obtain_trg_cuts` (thot_get_nblist_segm_info.py:47-55); `none` is the `KeyError` of an unknown transition. -/
def cutLoop (wg : List (W × W)) : List W → Nat → Option (List Nat)
  | [], _ => some []
  | k :: ks, pos =>
    match AMap.lk wg k with
    | none => none
    | some t => (cutLoop wg ks (pos + (fields ' ' t).length)).map fun r => (pos + (fields ' ' t).length) :: r

/-- `different_pos` (thot_get_nblist_segm_info.py:62-69). -/
def diffPos : W → W → Nat → List Nat
  | _, [], _ => []
  | [], s :: ss, i => (if s = '1' then [i] else []) ++ diffPos [] ss (i + 1)
  | p :: ps, s :: ss, i => (if p = '0' ∧ s = '1' then [i] else []) ++ diffPos ps ss (i + 1)

/-- `obtain_src_segm_given_coverages` (thot_get_nblist_segm_info.py:58-72); `none` is the `ValueError` of `min` of an empty list. -/
def srcSegm (prev succ : W) : Option W :=
  match diffPos prev.reverse succ.reverse 0 with
  | [] => none
  | a :: l => some ("( ".toList ++ showNat (l.foldl min a) ++ " , ".toList ++ showNat (l.foldl max a) ++ " )".toList)

/-- `obtain_src_segms` (thot_get_nblist_segm_info.py:75-87). -/
def segmLoop (idx : List (W × W)) : List W → Option (List W)
  | [] => some []
  | k :: ks =>
    match splitOn arrow k with
    | o :: d :: _ =>
      match AMap.lk idx o, AMap.lk idx d with
      | some p, some s =>
        match srcSegm p s with
        | some t => (segmLoop idx ks).map (t :: ·)
        | none => none
      | _, _ => none
    | _ => none

/-- An entry (thot_get_nblist_segm_info.py:98-106); `none` also for a missing field and for no transitions (`trgcuts` undefined). -/
def segmLine (wg idx : List (W × W)) (ln : W) : Option W :=
  match (splitOn bars ln)[2]? with
  | none => none
  | some f =>
    if fields ' ' f = [] then none
    else match cutLoop wg (fields ' ' f) 0, segmLoop idx (fields ' ' f) with
      | some cuts, some segs => some (ln ++ fsep ++ joinWords segs ++ " | ".toList ++ joinWords (cuts.map showNat))
      | _, _ => none

def segmLines (wg idx : List (W × W)) : List W → Option (List W)
  | [] => some []
  | ln :: ls =>
    match segmLine wg idx ln, segmLines wg idx ls with
    | some a, some r => some (a :: r)
    | _, _ => none

/-- `thot_get_nblist_segm_info` (thot_get_nblist_segm_info.py:90-158): the first two lines of the word graph and of the index are
skipped. -/
def segmInfo (nbl wgfile idxfile : List W) : Option (List W) :=
  match loadWg (wgfile.drop 2) [], loadIdx (idxfile.drop 2) [] with
  | some wg, some idx =>
    match nbl with
    | [] => some []
    | h :: ls => (segmLines wg idx ls).map (h :: ·)
  | _, _ => none

/-! ### Filtering -/

/-- The message of a failed check. -/
def notSat : W := "CONSTRAINTS NOT SATISFIED".toList

/-- `filter_nblist` (thot_filter_nblist.sh:46-74); an entry without a line of the check is not printed. -/
def filtLoop : List W → List W → List W
  | [], _ => []
  | ln :: ls, chk => (match chk with
    | [] => []
    | c :: _ => if c = notSat then [] else [ln]) ++ filtLoop ls chk.tail

/-- The first line of the index without its first three words (thot_filter_nblist.sh:28-32). -/
def srcSent (idxfile : List W) : W := joinWords ((fields ' ' (idxfile.headD [])).drop 3)

/-- What `thot_check_constraints` prints (thot_check_constraints.cc:231-283). -/
def verdictLine : Meta.Verdict → W
  | .satisfied => "CONSTRAINTS SATISFIED".toList
  | .notSatisfied => notSat
  | .targetEmpty => "ERROR: TARGET SENTENCE EMPTY".toList
  | .alignmentEmpty => "ERROR: ALIGNMENT INFORMATION EMPTY".toList
  | .alignmentIncorrect => "ERROR: ALIGNMENT INFORMATION INCORRECT".toList

/-- `thot_filter_nblist` (thot_filter_nblist.sh:134-151). `md` are the constraints read from the source sentence; the tool that checks them is
`Verif.Meta.Check`. `none`: one of the tools ends with an exception or reads out of bounds. -/
def filterNbl (md : W → Meta.MD) (nbl wgfile idxfile : List W) : Option (List W) :=
  match segmInfo nbl wgfile idxfile with
  | none => none
  | some info =>
    match Meta.checkLoop (md (srcSent idxfile)) (nbl.tail.map fun ln => (splitOn fsep ln).getD 3 [])
        (info.tail.map fun ln => (splitOn fsep ln).getLastD []) with
    | none => none
    | some vs =>
      match nbl with
      | [] => some []
      | h :: ls => some (h :: filtLoop ls (vs.1.map verdictLine))

end Thot.NbTools
