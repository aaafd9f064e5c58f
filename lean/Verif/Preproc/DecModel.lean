import Verif.Preproc.TmModel
import Verif.Preproc.LmModel
/-!
Model of the decoder of the recaser and the detokenizer: classes `Hypothesis`, `PriorityQueue`, `StateInfoDict` and `Decoder` of
`/repo/utils/smt_preproc/thot_smt_preproc.py`, run by Python 3 (configure.ac, `AM_PATH_PYTHON([3])`).

`Hypothesis` only defines `__cmp__`, which Python 3 ignores, so a comparison of two hypotheses raises `TypeError`: `heappush` compares as soon
as the heap is not empty. An exception is `none`; it is not caught, so it ends the program. The scores are the value of an arbitrary function
(they are sums of logarithms, which are defined as the probabilities are positive).
-/
namespace Thot.Preproc

open Thot
open Thot.SentHandler (joinWords)
open Thot.Awk (fields)
open Thot.AMap (lk put)

/-- `BfsHypdata` and `Hypothesis` (thot_smt_preproc.py:660-681). -/
structure Hyp where
  cov : List Nat
  words : Str
  score : Rat

/-- `Hypothesis()` (thot_smt_preproc.py:676-678). -/
def Hyp.init : Hyp := ⟨[], [], 0⟩

/-- `PriorityQueue.put` (thot_smt_preproc.py:692-693): with another element in the heap, `heappush` compares. -/
def heapPush (heap : List Hyp) (h : Hyp) : Option (List Hyp) := if heap = [] then some [h] else none

/-- `StateInfo` (thot_smt_preproc.py:731-741). -/
abbrev StInfo := Nat × Str

/-- `get_lm_state` (thot_smt_preproc.py:629-647): the last `n-1` words after the mark of begin; given here as a suffix of the list. -/
def lmState (n : Nat) (words : Str) : Str :=
  joinWords ((bosStr :: fields ' ' words).drop ((bosStr :: fields ' ' words).length - (n - 1)))

/-- `get_mon_hyp_state` (thot_smt_preproc.py:291-295) and `obtain_state_info` (thot_smt_preproc.py:744-746). -/
def stInfo (n : Nat) (h : Hyp) : StInfo := (h.cov.getLast?.getD 0, lmState n h.words)

/-- `StateInfoDict.insert` (thot_smt_preproc.py:707-714). -/
def dictIns (d : List (StInfo × Rat)) (k : StInfo) (s : Rat) : List (StInfo × Rat) :=
  match lk d k with
  | some r => if r < s then put d k s else d
  | none => put d k s

/-- `hyp_recombined` (thot_smt_preproc.py:719-727). -/
def recombined (d : List (StInfo × Rat)) (k : StInfo) (s : Rat) : Bool :=
  match lk d k with
  | some r => decide (s < r)
  | none => false

/-- The next position: `last_cov_pos(...)+1` (thot_smt_preproc.py:1285-1290). -/
def nextPos (cov : List Nat) : Nat :=
  match cov.getLast? with
  | some c => c + 1
  | none => 0

/-- `hyp_is_complete` (thot_smt_preproc.py:1293-1304). -/
def complete (h : Hyp) (toks : List Str) : Bool := nextPos h.cov == toks.length

/-- The words to translate (thot_smt_preproc.py:1200-1206). -/
def newSrc (toks : List Str) (h : Hyp) (c : Nat) : Str := joinWords ((toks.drop (nextPos h.cov)).take (c + 1 - nextPos h.cov))

/-- The options (thot_smt_preproc.py:1209-1214). -/
def expOpts (tm : TM) (src : Str) : List Str :=
  if tm.opts src = [] ∧ (fields ' ' src).length = 1 then [src] else tm.opts src

/-- The new words (thot_smt_preproc.py:1238-1242). -/
def newWords (words opt : Str) : Str := if words = [] then opt else words ++ ' ' :: opt

/-- `expand` (thot_smt_preproc.py:1195-1282). -/
def expand (tm : TM) (ext : Hyp → Nat → Str → Rat) (toks : List Str) (h : Hyp) (c : Nat) : List Hyp :=
  (expOpts tm (newSrc toks h c)).map fun o => ⟨h.cov ++ [c], newWords h.words o, h.score + ext h c o⟩

/-- The insertion of an expansion (thot_smt_preproc.py:1400-1406). -/
def insHyp (n : Nat) (st : List Hyp × List (StInfo × Rat)) (x : Hyp) : Option (List Hyp × List (StInfo × Rat)) :=
  match heapPush st.1 x with
  | some heap => some (heap, dictIns st.2 (stInfo n x) x.score)
  | none => none

/-- The insertion of the expansions. -/
def insAll (n : Nat) : List Hyp → List Hyp × List (StInfo × Rat) → Option (List Hyp × List (StInfo × Rat))
  | [], st => some st
  | x :: xs, st =>
    match insHyp n st x with
    | some st' => insAll n xs st'
    | none => none

/-- All the expansions (thot_smt_preproc.py:1394-1406); `_global_a_par` is 7. -/
def allExp (tm : TM) (ext : Hyp → Nat → Str → Rat) (toks : List Str) (h : Hyp) : List Hyp :=
  (List.range 7).flatMap fun l => if nextPos h.cov + l < toks.length then expand tm ext toks h (nextPos h.cov + l) else []

/-- What an iteration does. -/
inductive Step where
  | stop (r : Option Hyp)
  | cont (heap : List Hyp) (d : List (StInfo × Rat))

/-- `get_hypothesis_to_expand` (thot_smt_preproc.py:1358-1367): `some none` when the heap is (or gets) empty. A heap has one element at most,
as `heapPush` fails otherwise. -/
def getHyp (n : Nat) (heap : List Hyp) (d : List (StInfo × Rat)) : Option (Option Hyp) :=
  match heap with
  | [] => some none
  | [h] => if recombined d (stInfo n h) h.score then some none else some (some h)
  | _ => none

/-- An iteration (thot_smt_preproc.py:1379-1406). -/
def iter (tm : TM) (ext : Hyp → Nat → Str → Rat) (n : Nat) (toks : List Str) (heap : List Hyp) (d : List (StInfo × Rat)) : Option Step :=
  match getHyp n heap d with
  | none => none
  | some none => some (.stop none)
  | some (some h) =>
    if complete h toks then some (.stop (some h))
    else
      match insAll n (allExp tm ext toks h) ([], d) with
      | some (heap', d') => some (.cont heap' d')
      | none => none

/-- `best_first_search` (thot_smt_preproc.py:1370-1430), with the iterations that are left; after `_global_maxniters` of them the result of
one more is dropped. -/
def search (tm : TM) (ext : Hyp → Nat → Str → Rat) (n : Nat) (toks : List Str) : Nat → List Hyp → List (StInfo × Rat) → Option (Option Hyp)
  | 0, heap, d =>
    match iter tm ext n toks heap d with
    | none => none
    | some _ => some none
  | k + 1, heap, d =>
    match iter tm ext n toks heap d with
    | none => none
    | some (.stop r) => some r
    | some (.cont heap' d') => search tm ext n toks k heap' d'

/-- `obtain_nblist` with a size of 1 (thot_smt_preproc.py:1307-1327). -/
def decode (tm : TM) (ext : Hyp → Nat → Str → Rat) (n : Nat) (toks : List Str) : Option (Option Hyp) :=
  search tm ext n toks 100000 [Hyp.init] (dictIns (dictIns [] (stInfo n Hyp.init) 0) (stInfo n Hyp.init) 0)

/-- A line of `recase` (thot_smt_preproc.py:1468-1495). -/
def recaseLine (tm : TM) (ext : Hyp → Nat → Str → Rat) (n : Nat) (line : Str) : Option Str :=
  if fields ' ' line = [] then some []
  else
    match decode tm ext n (fields ' ' line) with
    | none => none
    | some none => some line
    | some (some h) => some h.words

/-- The lines printed by `recase`; an exception loses the rest. -/
def recase (tm : TM) (ext : Hyp → Nat → Str → Rat) (n : Nat) : List Str → List Str × Bool
  | [] => ([], true)
  | l :: ls =>
    match recaseLine tm ext n l with
    | some o => (o :: (recase tm ext n ls).1, (recase tm ext n ls).2)
    | none => ([], false)

/-- The loop over the coverage of `obtain_detok_sent` (thot_smt_preproc.py:1337-1354); `left` is the leftmost position. -/
def detokGroups (toks : List Str) : Nat → List Nat → List Str
  | _, [] => []
  | left, c :: cs => ((toks.drop left).take (c + 1 - left)).flatten :: detokGroups toks (c + 1) cs

/-- `obtain_detok_sent` (thot_smt_preproc.py:1330-1356). -/
def obtainDetok (toks : List Str) (cov : List Nat) : Str := if toks = [] then [] else joinWords (detokGroups toks 0 cov)

/-- A line of `detokenize` (thot_smt_preproc.py:1432-1464); `tr` is `transform_word`. -/
def detokLine (tm : TM) (ext : Hyp → Nat → Str → Rat) (n : Nat) (tr : Str → Str) (line : Str) : Option Str :=
  if fields ' ' line = [] then some []
  else
    match decode tm ext n ((fields ' ' line).map tr) with
    | none => none
    | some none => some line
    | some (some h) => some (obtainDetok (fields ' ' line) h.cov)

end Thot.Preproc
