import Verif.PhrExtract.Props
import Verif.Common.AMap

/-!
# Model of the segmentation-based extraction of phrase pairs (BRF estimation)

`src/phrase_models/PhraseExtractionTable.cc`: `segmBasedExtraction`, `obtainBpSet`, `srfPhraseExtractDp`,
`fillSrfNodeInfoMap`, `fillSrfNodeInfoMapRec`, `obtainPhrPairVecFromBpSet`; `src/phrase_models/BpSet.cc`;
`src/phrase_models/SrfNodeInfoMap.cc`.

Simplifications: the code keeps the logarithms of numbers of segmentations in `double`s and `float`s and adds
them with `lns_sumlog`; the model keeps the numbers themselves (exact): `SMALL_LG_NUM` is the number 0, the
test `>=0` of a logarithm is `≥ 1`, `lns_sumlog` is `+` and `exp(a-b)` is the fraction `a/b` (kept as numerator and
denominator).  `BpSet::consPairs[x1][x2]` is the list of the elements with these source positions in the order of
insertion; the model keeps one list for all of them.  The random walks (`approxSrfPhraseExtract`) are dropped: they
are used for sentences of more than `SENT_LENGTH_LIMIT_EXACT_SRF`=100 words, and such sentences were discarded before
(`MAX_SENTENCE_LENGTH`=101).  Verbose output is dropped.
-/

namespace Thot.Srf

open Thot.WordAlig (Mat)
open Thot.PhrExtract
open AMap

/-- `BpSet`, `BpSet.h:40-80`: pairs of segments and their counts. -/
abbrev BpSet := List (Span × Nat)

/-- `BpSet::incrPair`, `BpSet.cc:40-73`. -/
def incrPair (b : BpSet) (s : Span) (c : Nat) : BpSet := put b s ((lk b s).getD 0 + c)

/-- `BpSet::retrieveTrgPhrasesGivenSrc`, `BpSet.cc:76-85`. -/
def retrieve (b : BpSet) (x1 x2 : Nat) : BpSet := b.filter fun e => e.1.x1 == x1 && e.1.x2 == x2

/-- `BpSet::getx1Max`, `BpSet.cc:88-93`. -/
def x1Max (b : BpSet) : Nat := b.foldl (fun m e => max m e.1.x1) 0

/-- `BpSet::getx2Max`, `BpSet.cc:96-101`. -/
def x2Max (b : BpSet) (x1 : Nat) : Nat := b.foldl (fun m e => if e.1.x1 = x1 then max m e.1.x2 else m) 0

/-- The elements in the order of the loops of `obtainUnion`, `BpSet.cc:106-112`. -/
def inOrder (b : BpSet) (first : Nat) : BpSet :=
  (List.range' first (x1Max b + 1 - first)).flatMap fun i =>
    (List.range' first (x2Max b i + 1 - first)).flatMap fun j => retrieve b i j

/-- `BpSet::obtainUnion`, `BpSet.cc:104-120`. -/
def obtainUnion (a b : BpSet) : BpSet := (inOrder b 0).foldl (fun a e => incrPair a e.1 e.2) a

/-- The loop for the first and the last position, `PhraseExtractionTable.cc:465-476` and `923-928`. -/
def minMax (c : Cov) (n : Nat) : Nat × Nat :=
  (List.range' 1 n).foldl (fun r k =>
    if test c k then (if r.1 > k then k else r.1, if r.2 < k then k else r.2) else r) (maxSentLen + 1, 0)

/-- The segments of a valid entry of the table, `PhraseExtractionTable.cc:915-935`. -/
def entrySpan (e : Ctx) (x y : Nat) (c : Cov) : Span :=
  ⟨(minMax c e.nslen).1, (minMax c e.nslen).2, e.tlen - x, y + 1⟩

/-- `obtainBpSet`, `PhraseExtractionTable.cc:902-943`; the counts given there to the pairs are not used
afterwards. -/
def obtainBpSet (e : Ctx) (tab : Table) : BpSet :=
  ((cellOrder e.tlen).flatMap fun p => ((tab p.1 p.2).filter (·.valid)).map fun a => (p, a.cov)).foldl
    (fun b q => incrPair b (entrySpan e q.1.1 q.1.2 q.2) 1) []

/-- Positions `1..n`: `SP` and `TP`, `PhraseExtractionTable.cc:415-418` and `369-372`. -/
def fullCov (n : Nat) : Cov := (List.range' 1 n).foldl cset 0

/-- `for(k=x1;k<=x;++k) SP_AUX.reset(k)`, `PhraseExtractionTable.cc:489-490`. -/
def markSrc (c : Cov) (x1 x : Nat) : Cov := (List.range' x1 (x + 1 - x1)).foldl creset c

/-- The loop that marks target positions, `PhraseExtractionTable.cc:495-505`: `m` positions from `k` on; `none` if
one is covered already. -/
def markTrg (c : Cov) (k : Nat) : Nat → Option Cov
  | 0 => some c
  | m + 1 => if test c k then markTrg (creset c k) (k + 1) m else none

/-- `SrfNodeInfo`, `SrfNodeInfo.h`: number of segmentations and counts of the pairs of segments. -/
structure Info where
  n : Nat
  c : BpSet

/-- `SrfNodeKey`: the source and target positions to be covered. -/
abbrev Key := Cov × Cov

/-- `SrfNodeInfoMap`, `SrfNodeInfoMap.cc`. -/
abbrev NMap := List (Key × Info)

/-- The information of a node; the nodes looked up are always present. -/
def infoOf (m : NMap) (k : Key) : Info := (lk m k).getD ⟨0, []⟩

/-- The update of the current node `snk` from the node `newk` reached with the pair `s`,
`PhraseExtractionTable.cc:528-546` and `551-569`. -/
def addStep (m : NMap) (snk newk : Key) (s : Span) : NMap :=
  if (infoOf m newk).n ≥ 1 then
    put m snk ⟨(infoOf m snk).n + (infoOf m newk).n,
      obtainUnion (incrPair (infoOf m snk).c s (infoOf m newk).n) (infoOf m newk).c⟩
  else m

/-- The pairs of segments tried at a node, `PhraseExtractionTable.cc:479-486`. -/
def steps (bp : BpSet) (I : Nat) (SP : Cov) : List Span :=
  (List.range' (minMax SP I).1 ((minMax SP I).2 + 1 - (minMax SP I).1)).flatMap fun x =>
    (retrieve bp (minMax SP I).1 x).map Prod.fst

/-- `fillSrfNodeInfoMapRec`, `PhraseExtractionTable.cc:425-574`.  The first number bounds the depth of the recursion
(each call covers some source position). -/
def fillRec (bp : BpSet) (I : Nat) : Nat → Cov → Cov → NMap → NMap
  | 0, _, _, m => m
  | f + 1, SP, TP, m =>
    if SP = 0 then put m (SP, TP) ⟨if TP = 0 then 1 else 0, []⟩
    else
      (steps bp I SP).foldl (fun m s =>
        match markTrg TP s.y1 (s.y2 + 1 - s.y1) with
        | none => m
        | some TP' =>
          addStep
            (if (lk m (markSrc SP s.x1 s.x2, TP')).isSome then m else fillRec bp I f (markSrc SP s.x1 s.x2) TP' m)
            (SP, TP) (markSrc SP s.x1 s.x2, TP') s)
        (put m (SP, TP) ⟨0, []⟩)

/-- `srfPhraseExtractDp`, `PhraseExtractionTable.cc:360-380`: number of segmentations and counts. -/
def srfDp (bp : BpSet) (I J : Nat) : Info :=
  infoOf (fillRec bp I (I + 1) (fullCov I) (fullCov J) []) (fullCov I, fullCov J)

/-- One phrase pair, `PhraseExtractionTable.cc:773-779`. -/
def mkPair (ns t : List String) (n : Nat) (e : Span × Nat) : Option Phrase :=
  match (List.range' e.1.x1 (e.1.x2 + 1 - e.1.x1)).mapM (fun i => ns[i]?),
    (List.range' e.1.y1 (e.1.y2 + 1 - e.1.y1)).mapM (fun j => t[j - 1]?) with
  | some s, some t => some ⟨s, t, e.2, n⟩
  | _, _ => none

/-- `obtainPhrPairVecFromBpSet`, `PhraseExtractionTable.cc:758-783`. -/
def obtainPhrPairs (ns t : List String) (C : BpSet) (n : Nat) : Option (List Phrase) :=
  (inOrder C 1).mapM (mkPair ns t n)

/-- `segmBasedExtraction`, `PhraseExtractionTable.cc:226-271`: the number of segmentations (of which the logarithm is
returned; 0 for sentences that are too long) and the phrase pairs. -/
def segmBased (p : Pars) (ns t : List String) (A : Mat) : Option (Nat × List Phrase) :=
  if t.length ≥ maxSentLen ∨ ns = [] ∨ ns.length - 1 ≥ maxSentLen then some (1, [])
  else
    (obtainPhrPairs ns t (srfDp (obtainBpSet ⟨ns.length, t.length, A, p⟩ (fillTable ⟨ns.length, t.length, A, p⟩))
        (ns.length - 1) t.length).c
      (srfDp (obtainBpSet ⟨ns.length, t.length, A, p⟩ (fillTable ⟨ns.length, t.length, A, p⟩))
        (ns.length - 1) t.length).n).map
      fun out => ((srfDp (obtainBpSet ⟨ns.length, t.length, A, p⟩ (fillTable ⟨ns.length, t.length, A, p⟩))
        (ns.length - 1) t.length).n, out)

end Thot.Srf
