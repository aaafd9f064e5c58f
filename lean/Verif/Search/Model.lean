import Verif.Meta.Model
import Verif.Common.MMap

/-!
Model of phrase-based search: hypothesis expansion in `/repo/src/stack_dec/_pbTransModel.h`, hypothesis data in
`PbTransModel.h`, `_phraseHypothesis.h`, and the search loops of `_stackDecoder.h`.

Simplifications:
* a target or source `WordIndex` is represented by the string it stands for.  `stringToTrgWordIndex` adds the words it
  does not know (`_pbTransModel.h:2976-2982`), so the correspondence is one to one (property C19);
  `NULL_WORD` and `UNK_WORD` are the words `NULL` and `UNKNOWN_WORD`;
* a hypothesis key (`Bitset`) is represented by the predicate "position j is covered" (property C01);
* scores are exact integers; the features are an arbitrary function of the predecessor and the extension
  (`extScore`), the phrase scores used to sort and prune translation options an arbitrary function (`phrScore`), and the
  translation options of a source phrase an arbitrary finite list (`opts`);
* `unsigned int` arithmetic is exact except where a comment says so.
-/
namespace Thot.Search
open Thot.StrProc (Str)
open Thot.Meta (MD Segm)

/-- `NULL_WORD_STR`. StatModelDefs.h:69. -/
def nullWord : Str := "NULL".toList
/-- `UNK_WORD_STR`. StatModelDefs.h:71. -/
def unkWord : Str := "UNKNOWN_WORD".toList

/-- `PhrHypData`. PhrHypData.h:37-46. -/
structure HypData where
  ntarget : List Str
  srcSegm : List Segm
  cuts : List Nat
deriving DecidableEq, Repr

/-- How `W` prunes the translation options: the `n` best, or those not below the best by more than a factor.
_pbTransModel.h:2442-2448. -/
inductive Prune where
  | best (n : Nat)
  | thr (logN : Int)
deriving DecidableEq, Repr

/-- Model parameters (`PbTransModelPars`), the feature functions, the heuristic and the score of the null hypothesis
(PbTransModel.h:122-171). -/
structure Model where
  A : Nat
  E : Nat
  U : Nat
  W : Prune
  opts : List Str → List (List Str)
  phrScore : List Str → List Str → Int
  extScore : HypData → HypData → Int
  heur : HypData → Int
  nullScore : Int := 0

/-- The input of a translation (`pbtmInputVars`: source words, reference words, prefix words and whether the prefix ends
in a blank), and the translation metadata. -/
structure Input where
  src : List Str
  md : MD
  ref : List Str := []
  pref : List Str := []
  prefBlank : Bool := false

/-- A hypothesis: score and data. -/
structure Hyp where
  score : Int
  data : HypData
deriving DecidableEq, Repr

/-- `nullHypothesisHypData`. PbTransModel.h:174-186. -/
def nullData : HypData := ⟨[nullWord], [], []⟩

/-- `extendHypDataIdx`. PbTransModel.h:310-329. -/
def extend (d : HypData) (l r : Nat) (trg : List Str) : HypData :=
  ⟨d.ntarget ++ trg, d.srcSegm ++ [(l, r)], d.cuts ++ [(d.ntarget ++ trg).length - 1]⟩

/-- `obtainPredecessorHypData`: the last segment and its target words are removed; `none` when there is no predecessor
(or the data are corrupted). PbTransModel.h:190-228. -/
def predecessor (d : HypData) : Option HypData :=
  if d.ntarget.length ≤ 1 then none
  else if d.cuts.length = 0 then none
  else
    let i := if d.cuts.length = 1 then d.cuts.getD 0 0 else d.cuts.getD (d.cuts.length - 1) 0 - d.cuts.getD (d.cuts.length - 2) 0
    some ⟨d.ntarget.take (d.ntarget.length - i), d.srcSegm.dropLast, d.cuts.dropLast⟩

/-- `numberOfUncoveredSrcWordsHypData` (the `unsigned int` subtraction does not underflow: C81).
PbTransModel.h:298-306. -/
def uncovered (n : Nat) (d : HypData) : Nat := n - (d.srcSegm.map fun s => s.2 + 1 - s.1).sum

/-- `isCompleteHypData`. PbTransModel.h:232-237. -/
def isComplete (n : Nat) (d : HypData) : Bool := uncovered n d == 0

/-- `distToNullHyp`. BasePbTransModel.h:325-328. -/
def distToNull (n : Nat) (d : HypData) : Nat := uncovered n nullData - uncovered n d

/-- `getKey` and `test(j)`. _phraseHypothesis.h:214-227. -/
def covered (d : HypData) (j : Nat) : Bool := d.srcSegm.any fun s => decide (s.1 ≤ j) && decide (j ≤ s.2)

/-- The loop of `extract_gaps`: `m` positions left, current position `j`, first position of the gap being crossed.
_pbTransModel.h:770-790. -/
def gapsLoop (cov : Nat → Bool) : Nat → Nat → Option Nat → List Segm
  | 0, _, none => []
  | 0, j, some f => [(f, j - 1)]
  | m + 1, j, none => if cov j then gapsLoop cov m (j + 1) none else gapsLoop cov m (j + 1) (some j)
  | m + 1, j, some f => if cov j then (f, j - 1) :: gapsLoop cov m (j + 1) none else gapsLoop cov m (j + 1) (some f)

/-- `extract_gaps`. _pbTransModel.h:752-791. -/
def extractGaps (n : Nat) (cov : Nat → Bool) : List Segm := gapsLoop cov n 1 none

/-- `get_num_gaps`: the same loop, counting. _pbTransModel.h:795-826. -/
def numGapsLoop (cov : Nat → Bool) : Nat → Nat → Bool → Nat → Nat
  | 0, _, crossing, res => if crossing then res + 1 else res
  | m + 1, j, crossing, res =>
    let crossing1 := if crossing = false ∧ cov j = false then true else crossing
    if crossing1 = true ∧ cov j = true then numGapsLoop cov m (j + 1) false (res + 1)
    else numGapsLoop cov m (j + 1) crossing1 res

/-- `get_num_gaps`. _pbTransModel.h:795-826. -/
def numGaps (n : Nat) (cov : Nat → Bool) : Nat := numGapsLoop cov n 1 false 0

/-- Source words `l … r` (`nsrcSentIdVec[l..r]`; positions are 1-based and inside the sentence, C81).
_pbTransModel.h:2403-2407. -/
def srcPhrase (src : List Str) (l r : Nat) : List Str := (src.drop (l - 1)).take (r + 1 - l)

/-- `verifyDictCoverageForSentence` and `unseenSrcWord`: the words of the sentence without translation options
(`phraseTranslationIsValid` is always true). _pbTransModel.h:1103-1165. -/
def unseenWords (M : Model) (src : List Str) : List Str := src.filter fun w => (M.opts [w]).isEmpty

/-- Insertion of all the options with their scores into an empty `NbestTableNode`. _pbTransModel.h:2433-2438. -/
def insertAll (sc : List Str → Int) : List (List Str) → List (Int × List Str) → List (Int × List Str)
  | [], t => t
  | o :: os, t => insertAll sc os (MMap.ins (sc o) o t)

/-- Pruning of a table sorted by decreasing score: `removeLastElement` while too large, or `pruneGivenThreshold`,
which removes the last elements while they are below the threshold (all of those below it, as the table is sorted).
_pbTransModel.h:2442-2448, NbestTableNode.h:140-163. -/
def prune (W : Prune) (t : List (Int × List Str)) : List (Int × List Str) :=
  match W with
  | .best n => t.take n
  | .thr logN =>
    match t with
    | [] => []
    | b :: _ => t.takeWhile fun e => decide (e.1 ≥ b.1 + logN)

/-- `getNbestTransForSrcPhrase`. _pbTransModel.h:2417-2450. -/
def nbestTrans (M : Model) (ph : List Str) : List (Int × List Str) :=
  if (M.opts ph).isEmpty then [] else prune M.W (insertAll (M.phrScore ph) (M.opts ph) [])

/-- `getTransForHypUncovGap`. _pbTransModel.h:2454-2508. -/
def transForGap (M : Model) (I : Input) (l r : Nat) : List (Int × List Str) :=
  if Meta.srcPhrAffectedByConstraint I.md (l, r) then
    let trg := Meta.getTransForSrcPhr I.md (l, r)
    if trg.length > 0 then [(0, trg)] else []
  else if l = r ∧ (unseenWords M I.src).contains (I.src.getD (l - 1) []) then [(0, [unkWord])]
  else nbestTrans M (srcPhrase I.src l r)

/-- `getHypDataVecForGap`. _pbTransModel.h:1976-2020. -/
def hypDataForGap (M : Model) (I : Input) (d : HypData) (l r : Nat) : List HypData :=
  (transForGap M I l r).map fun e => extend d l r e.2

/-- The segments with the target positions they are aligned with: (segment, last target position before, last target
position). The two vectors have the same length (C81). _phraseHypothesis.h:150-176. -/
def alignedSegs : Nat → List Segm → List Nat → List (Segm × Nat × Nat)
  | _, [], _ => []
  | _, _, [] => []
  | prev, s :: ss, c :: cs => (s, prev, c) :: alignedSegs c ss cs

/-- `areAligned(srcPos,trgPos)`. _phraseHypothesis.h:150-176. -/
def areAligned (d : HypData) (j i : Nat) : Bool :=
  (alignedSegs 0 d.srcSegm d.cuts).any fun e =>
    decide (e.1.1 ≤ j) && decide (j ≤ e.1.2) && decide (e.2.1 + 1 ≤ i) && decide (i ≤ e.2.2)

/-- Replacing the unknown words of a constrained segment starting at index `i`; `none` is an out-of-bounds access.
_pbTransModel.h:1702-1706. -/
def replaceConstr (i : Nat) : List Str → List Str → Option (List Str)
  | v, [] => some v
  | v, w :: ws =>
    match v[i]? with
    | none => none
    | some x => replaceConstr (i + 1) (if x = unkWord then v.set i w else v) ws

/-- First index `i` such that the target word `i+1` is aligned with source position `j`. _pbTransModel.h:1698-1711. -/
def firstAligned (d : HypData) (j : Nat) (len : Nat) : Option Nat :=
  (List.range len).find? fun i => areAligned d j (i + 1)

/-- The loop over the constraints of `getTransInPlainTextVecTs`. _pbTransModel.h:1689-1713. -/
def constrLoop (md : MD) (d : HypData) : List Segm → List Str → Option (List Str)
  | [], v => some v
  | c :: cs, v =>
    match firstAligned d c.1 v.length with
    | none => constrLoop md d cs v
    | some i =>
      match replaceConstr i v (Meta.getTransForSrcPhr md c) with
      | none => none
      | some v' => constrLoop md d cs v'

/-- An unknown word is replaced by the first source word aligned with it. _pbTransModel.h:1716-1730. -/
def replaceUnk (src : List Str) (d : HypData) (i : Nat) (w : Str) : Str :=
  if w = unkWord then
    match (List.range src.length).find? fun j => areAligned d (j + 1) (i + 1) with
    | some j => src.getD j []
    | none => w
  else w

/-- `getTransInPlainTextVecTs`. _pbTransModel.h:1670-1732. -/
def textTs (I : Input) (d : HypData) : Option (List Str) :=
  match constrLoop I.md d (Meta.getConstrainedSrcPhrases I.md) d.ntarget.tail with
  | none => none
  | some v => some (v.mapIdx fun i w => replaceUnk I.src d i w)

/-- Is the extension kept by `expand`? `none` is an out-of-bounds access. _pbTransModel.h:888-898. -/
def keepExt (I : Input) (d : HypData) : Option Bool :=
  match textTs I d with
  | none => none
  | some tw => Meta.translationSatisfiesConstraints I.md d.srcSegm d.cuts tw

/-- `incrScore`. PbTransModel.h:251-294. -/
def incrScore (M : Model) (h : Hyp) (d : HypData) : Hyp := ⟨h.score + M.extScore h.data d, d⟩

/-- The `y` loop of `expand`: the right ends tried for a left end `l` in a gap ending at `g`, `m` of them left; it
breaks at a phrase longer than `A`, unless the phrase is affected by a constraint (`ca`) . _pbTransModel.h:871-885. -/
def rightEnds (A : Nat) (ca : Segm → Bool) (l : Nat) : Nat → Nat → List Nat
  | 0, _ => []
  | m + 1, r => if r + 1 - l > A ∧ ca (l, r) = false then [] else r :: rightEnds A ca l m (r + 1)

/-- The segments tried by the expansion functions: for every gap, every left end at most `U` words from its beginning,
every right end. _pbTransModel.h:861-885 (expand), 931-951 (expand_ref), 986-1006, 1041-1061. -/
def segmsToTry (M : Model) (ca : Segm → Bool) (gaps : List Segm) : List Segm :=
  gaps.flatMap fun g =>
    (List.range (g.2 + 1 - g.1)).flatMap fun x =>
      if x ≤ M.U then (rightEnds M.A ca (g.1 + x) (g.2 + 1 - g.1 - x) (g.1 + x)).map fun r => (g.1 + x, r) else []

/-- Filtering with a test that may read out of bounds. -/
def filterM? {α : Type} (p : α → Option Bool) : List α → Option (List α)
  | [] => some []
  | a :: as =>
    match p a, filterM? p as with
    | some true, some r => some (a :: r)
    | some false, some r => some r
    | _, _ => none

/-- `expand`. _pbTransModel.h:842-905. -/
def expand (M : Model) (I : Input) (h : Hyp) : Option (List Hyp) :=
  let segs := segmsToTry M (Meta.srcPhrAffectedByConstraint I.md) (extractGaps I.src.length (covered h.data))
  match filterM? (keepExt I) (segs.flatMap fun s => hypDataForGap M I h.data s.1 s.2) with
  | none => none
  | some ds => some (ds.map (incrScore M h))

/-- The expansion functions for a reference, verification or prefix: no exemption from the phrase length limit and no test
of the constraints; `gen` gives the extensions for a segment. _pbTransModel.h:908-960, 963-1015, 1018-1070. -/
def expandWith (M : Model) (I : Input) (gen : HypData → Nat → Nat → Option (List HypData)) (h : Hyp) :
    Option (List Hyp) :=
  let segs := segmsToTry M (fun _ => false) (extractGaps I.src.length (covered h.data))
  match segs.mapM fun s => gen h.data s.1 s.2 with
  | none => none
  | some dss => some (dss.flatten.map (incrScore M h))

/-- `hypDataTransIsPrefixOfTargetRef`: `none` is false, `some e` is true with `equal = e`. PbTransModel.h:349-366. -/
def isPrefixOfRef (I : Input) (d : HypData) : Option Bool :=
  if d.ntarget.length > I.ref.length + 1 then none
  else if (List.range (d.ntarget.length - 1)).all fun i => (nullWord :: I.ref)[i + 1]? == d.ntarget[i + 1]?
  then some (decide (d.ntarget.length = I.ref.length + 1)) else none

/-- The test on an extension in `getHypDataVecForGapRef` and `getHypDataVecForGapVer`. _pbTransModel.h:2060-2065,
2112-2117. -/
def refTest (I : Input) (d : HypData) : Bool :=
  match isPrefixOfRef I d with
  | none => false
  | some equal => (isComplete I.src.length d && equal) || !isComplete I.src.length d

/-- The length limits of a target phrase. _pbTransModel.h:2558-2560, 2630-2632, 2741-2743. -/
def lenOk (E : Nat) (srcLen trgLen : Nat) : Bool :=
  decide ((if srcLen > E then srcLen - E else 0) ≤ trgLen) && decide (trgLen ≤ srcLen + E)

/-- The successive values of `trgPhrase` when the words `ws` are pushed back one by one. -/
def initials (ws : List Str) : List (List Str) := (List.range ws.length).map fun k => ws.take (k + 1)

/-- The number of gaps after covering `l … r`, as `transUncovGapRefNoLastGapCached` computes it.
_pbTransModel.h:2562-2577. -/
def gapsAfter (M : Model) (n : Nat) (d : HypData) (l r : Nat) : Nat :=
  if M.U = 0 then 1 else numGaps n fun j => covered d j || (decide (l ≤ j) && decide (j ≤ r))

/-- `transUncovGapRefNoLastGapCached` (without the cache, C88); `none`: the subtraction underflows and the reference is
read out of bounds. _pbTransModel.h:2538-2609. -/
def transRefNoLastGap (M : Model) (I : Input) (d : HypData) (l r : Nat) : Option (List (Int × List Str)) :=
  let sp := srcPhrase I.src l r
  let ng := gapsAfter M I.src.length d l r
  if ng > I.ref.length + 1 then none
  else
    let ws := ((nullWord :: I.ref).take (I.ref.length + 1 - ng)).drop d.ntarget.length
    some (prune M.W (insertAll (M.phrScore sp) ((initials ws).filter fun t => lenOk M.E sp.length t.length) []))

/-- `transUncovGapRefLastGapCached`. _pbTransModel.h:2612-2643. -/
def transRefLastGap (M : Model) (I : Input) (d : HypData) (l r : Nat) : List (Int × List Str) :=
  let sp := srcPhrase I.src l r
  let t := (nullWord :: I.ref).drop d.ntarget.length
  if lenOk M.E sp.length t.length then [(M.phrScore sp t, t)] else []

/-- `getTransForHypUncovGapRef` (`a - b > 0` for unsigned integers is `a ≠ b`). _pbTransModel.h:2511-2535. -/
def transRef (M : Model) (I : Input) (d : HypData) (l r : Nat) : Option (List (Int × List Str)) :=
  if d.ntarget.length > I.ref.length + 1 then some []
  else if uncovered I.src.length d ≠ r + 1 - l then transRefNoLastGap M I d l r
  else some (transRefLastGap M I d l r)

/-- `getHypDataVecForGapRef`. _pbTransModel.h:2022-2071. -/
def hypDataRef (M : Model) (I : Input) (d : HypData) (l r : Nat) : Option (List HypData) :=
  (transRef M I d l r).map fun t => (t.map fun e => extend d l r e.2).filter (refTest I)

/-- `getHypDataVecForGapVer` (`getTransForHypUncovGapVer` is `getTransForHypUncovGap`). _pbTransModel.h:2074-2123,
2647-2655. -/
def hypDataVer (M : Model) (I : Input) (d : HypData) (l r : Nat) : List HypData :=
  (hypDataForGap M I d l r).filter (refTest I)

/-- The loop of `trgWordVecIsPrefix`. _pbTransModel.h:2843-2855. -/
def isPrefixLoop (blank : Bool) (last : Str) : List Str → List Str → Bool
  | [], _ => true
  | _ :: _, [] => false
  | a :: as, b :: bs =>
    if a ≠ b then
      if as.length = 0 ∧ blank = false then
        if StrProc.isPrefix last b then isPrefixLoop blank last as bs else false
      else false
    else isPrefixLoop blank last as bs

/-- `trgWordVecIsPrefix`: `none` is false, `some e` is true with `equal = e`; the second vector is not empty when
`back()` is called. _pbTransModel.h:2831-2865. -/
def wordVecIsPrefix (v1 : List Str) (blank : Bool) (last : Str) (v2 : List Str) : Option Bool :=
  if v1.length > v2.length then none
  else if isPrefixLoop blank last v1 v2 then
    some (decide (v1.length = v2.length) && decide (v2.getLast? = some last))
  else none

/-- `remainingPref`. _pbTransModel.h:2780-2782, 2792-2799. -/
def remPref (I : Input) (d : HypData) : List Str := (nullWord :: I.pref).drop d.ntarget.length

/-- `genListOfTransLongerThanPref`: the translations kept, in order. `prefSentVec.back()` is read only when a translation
is at least as long as the remaining prefix; the prefix is not empty there (C87). _pbTransModel.h:2787-2828. -/
def longerThanPref (M : Model) (I : Input) (d : HypData) (sp : List Str) : List (List Str) :=
  (M.opts sp).filter fun t =>
    decide (t.length ≥ (remPref I d).length) &&
      (match wordVecIsPrefix (remPref I d) I.prefBlank (I.pref.getLastD []) t with
       | some false => true
       | _ => false)

/-- `transUncovGapPrefNoGen`. _pbTransModel.h:2725-2784. -/
def transPrefNoGen (M : Model) (I : Input) (d : HypData) (l r : Nat) : List (Int × List Str) :=
  let sp := srcPhrase I.src l r
  let longer := longerThanPref M I d sp
  let shorter :=
    if uncovered I.src.length d ≠ r + 1 - l then
      if I.pref.length + 1 > 1 then
        (initials (((nullWord :: I.pref).take I.pref.length).drop d.ntarget.length)).filter fun t =>
          lenOk M.E sp.length t.length
      else []
    else []
  insertAll (M.phrScore sp) (longer ++ shorter ++ [remPref I d]) []

/-- `getTransForHypUncovGapPref` (without the cache, C88). _pbTransModel.h:2658-2722. -/
def transPref (M : Model) (I : Input) (d : HypData) (l r : Nat) : List (Int × List Str) :=
  if d.ntarget.length < I.pref.length + 1 then prune M.W (transPrefNoGen M I d l r) else transForGap M I l r

/-- `getHypDataVecForGapPref`. _pbTransModel.h:2126-2167. -/
def hypDataPref (M : Model) (I : Input) (d : HypData) (l r : Nat) : List HypData :=
  (transPref M I d l r).map fun e => extend d l r e.2

/-- The four ways of using the model: translation, translation with a reference, verification of the coverage of a
reference, and translation with a prefix. -/
inductive Mode where
  | trans
  | ref
  | ver
  | pref
deriving DecidableEq, Repr

/-- The expansion function used in each mode. _stackDecoder.h:932, 1050, 1157, 1263. -/
def expandMode (m : Mode) (M : Model) (I : Input) (h : Hyp) : Option (List Hyp) :=
  match m with
  | .trans => expand M I h
  | .ref => expandWith M I (hypDataRef M I) h
  | .ver => expandWith M I (fun d l r => some (hypDataVer M I d l r)) h
  | .pref => expandWith M I (fun d l r => some (hypDataPref M I d l r)) h

/-- `getTransInPlainTextVecTps`. _pbTransModel.h:1735-1778. -/
def textTps (I : Input) (d : HypData) : List Str :=
  d.ntarget.tail.mapIdx fun i w =>
    if w = unkWord then
      match I.pref[i]? with
      | some p => p
      | none => replaceUnk I.src d i w
    else w

/-- `getTransInPlainTextVecTrs` and `getTransInPlainTextVecTvs`. _pbTransModel.h:1781-1831. -/
def textTrs (I : Input) (d : HypData) : List Str :=
  d.ntarget.tail.mapIdx fun i w => I.ref.getD i w

end Thot.Search
