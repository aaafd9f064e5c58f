import Verif.Search.Model
import Mathlib.Algebra.Ring.Defs
import Mathlib.Algebra.Ring.Int.Defs

/-!
Model of the features of the log-linear model: `nullHypScore` and `extensionScore` of the classes
`/repo/src/stack_dec/{LangModelFeat,WordPenaltyFeat,SrcPosJumpFeat,SrcPhraseLenFeat,TrgPhraseLenFeat,
DirectPhraseModelFeat,InversePhraseModelFeat}`, the sums of `PbTransModel.h` (`nullHypothesisScrComps`, `incrScore`),
the hypothesis state of `PhraseBasedTmHypRec.h` and the heuristics of `_pbTransModel.h` that use the features.

Simplifications:
* scores and weights are elements of an arbitrary commutative ring (no rounding);
* words are strings (`Verif.Search.Model`); the language model has its own codes (`known`, `code`);
* the phrase models, the language model, the word penalty model and the logarithms are arbitrary functions;
* the statements are about hypotheses built by extension, whose vectors are read inside their bounds.
-/
namespace Thot.Feat
open Thot.StrProc (Str)
open Thot.Meta (Segm)
open Thot.Search (HypData extend nullData srcPhrase covered extractGaps)

/-- `LM_State` (`std::vector<WordIndex>`). LM_State.h. -/
abbrev LMState := List Nat

/-- The language model interface used by the feature: vocabulary, state of the beginning of a sentence, log-probability
of a word (end of sentence) given the state, and the state after it. `getNgramLgProbGivenState` returns the
log-probability and updates the state as `addNextWordToState` does. _incrNgramLM.h:287-345, BaseNgramLM.h:168-173,
KenLm.cc:87-131. -/
structure LM (R : Type) where
  known : Str → Bool
  code : Str → Nat
  unk : Nat
  empty : LMState
  bos : LMState
  lgp : Nat → LMState → R
  next : Nat → LMState → LMState
  eos : LMState → R
  eosNext : LMState → LMState

/-- Word penalty model: `wordPenaltyScore` and `sumWordPenaltyScore`. WordPenaltyModel.h. -/
structure WP (R : Type) where
  score : Nat → R
  sum : Nat → R

/-- The modes of `TrgSegmLenTable`, with the functions of numbers they use: `log(1/gapLength)`, the Poisson
log-probability of a length given the other one, and the geometric log-probability of a difference.
TrgSegmLenTable.cc:55-110. -/
inductive SegmLen (R : Type) where
  | uniform (logInv : Nat → R)
  | poisson (lp : Nat → Nat → R)
  | geom (lp : Nat → R)

/-- The features. `phr` stands for `DirectPhraseModelFeat` and `InversePhraseModelFeat`, whose functions differ only in
the model function applied to the phrase pair. -/
inductive Feat (R : Type) where
  | phr (f : List Str → List Str → R)
  | lm (m : LM R)
  | wp (m : WP R)
  | jump (f : Nat → R)
  | srcLen (t : SegmLen R)
  | trgLen (f : Nat → Nat → Nat → R)

/-- `PhrScoreInfo`: the score and the language model state. PhrScoreInfo.h:43-53. -/
structure Info (R : Type) where
  score : R
  lmHist : LMState
deriving DecidableEq, Repr

section
variable {R : Type} [CommRing R]

/-- `stringToWordIndex`. LangModelFeat.h:330-337. -/
def LM.idx (m : LM R) (w : Str) : Nat := if m.known w then m.code w else m.unk

/-- `addWordSeqToStateStr`. LangModelFeat.h:311-326. -/
def LM.addWords (m : LM R) (ws : List Str) (st : LMState) : LMState := ws.foldl (fun s w => m.next (m.idx w) s) st

/-- `getNgramScoreGivenState`: the score of a phrase and the state after it. LangModelFeat.h:272-296. -/
def LM.ngramScore (m : LM R) : List Str → LMState → R × LMState
  | [], st => (0, st)
  | w :: ws, st => let r := m.ngramScore ws (m.next (m.idx w) st); (m.lgp (m.idx w) st + r.1, r.2)

/-- First target position of segment `i`. DirectPhraseModelFeat.cc:56-61 (the same lines in the other features). -/
def trgLeft (d : HypData) (i : Nat) : Nat := if i = 0 then 1 else d.cuts.getD (i - 1) 0 + 1
/-- Last target position of segment `i`. -/
def trgRight (d : HypData) (i : Nat) : Nat := d.cuts.getD i 0
/-- Target words of segment `i`. DirectPhraseModelFeat.cc:63-68, LangModelFeat.cc:83-85. -/
def trgPhr (d : HypData) (i : Nat) : List Str := (d.ntarget.drop (trgLeft d i)).take (trgRight d i + 1 - trgLeft d i)
/-- `nextTrgPhraseLen` (the `unsigned int` subtractions wrap around to the same value). WordPenaltyFeat.cc:71. -/
def trgLenOf (d : HypData) (i : Nat) : Nat := trgRight d i + 1 - trgLeft d i
/-- `sourceSegmentation[i]`. -/
def segm (d : HypData) (i : Nat) : Segm := d.srcSegm.getD i (0, 0)

/-- The segments of the new hypothesis that the predecessor does not have: the range of the loops of all the
`extensionScore` functions, e.g. DirectPhraseModelFeat.cc:43. -/
def newSegms (pred new : HypData) : List Nat :=
  List.range' pred.srcSegm.length (new.srcSegm.length - pred.srcSegm.length)

/-- `numberOfSrcWordsCovered`. BasePbTransModelFeature.h:143-149. -/
def numCovered (d : HypData) : Nat := (d.srcSegm.map fun s => s.2 - s.1 + 1).sum

/-- Score of the information and unweighted score while a loop runs. -/
structure Acc (R : Type) where
  score : R
  unw : R

/-- `unweightedScore+=iterScore; hypScrInf.score+=weight*iterScore`. -/
def Acc.add (w : R) (a : Acc R) (x : R) : Acc R := ⟨a.score + w * x, a.unw + x⟩

/-- `trgSegmLenLgProbUniform`: first position of the next translated segment (or the length). TrgSegmLenTable.cc:60-74.
-/
def nextGapStart (segms : List Segm) (k len left : Nat) : Nat :=
  (List.range k).foldl (fun g j =>
    if left < (segms.getD j (0, 0)).1 ∧ (segms.getD j (0, 0)).1 < g then (segms.getD j (0, 0)).1 else g) len

/-- `|a - b|` computed as in TrgSegmLenTable.cc:100-104. -/
def natDiff (a b : Nat) : Nat := if a < b then b - a else a - b

/-- `trgSegmLenLgProb(k, segmentation, length, length of the other segment)`. TrgSegmLenTable.cc:40-110. -/
def SegmLen.lgProb (t : SegmLen R) (k : Nat) (segms : List Segm) (len other : Nat) : R :=
  let s := segms.getD k (0, 0)
  match t with
  | .uniform logInv => logInv (nextGapStart segms k len s.1 - s.1 + 1)
  | .poisson lp => lp (s.2 - s.1 + 1) other
  | .geom lp => lp (natDiff (s.2 - s.1 + 1) other)

/-- `extensionScore` of `DirectPhraseModelFeat` and `InversePhraseModelFeat`.
DirectPhraseModelFeat.cc:31-79, InversePhraseModelFeat.cc:31-79. -/
def extPhr (f : List Str → List Str → R) (src : List Str) (w sc : R) (pred new : HypData) : Acc R :=
  (newSegms pred new).foldl (fun a i => a.add w (f (srcPhrase src (segm new i).1 (segm new i).2) (trgPhr new i))) ⟨sc, 0⟩

/-- One iteration of the loop of the language model feature. LangModelFeat.cc:74-92. -/
def lmIter (m : LM R) (w : R) (new : HypData) (p : Acc R × LMState) (i : Nat) : Acc R × LMState :=
  let r := m.ngramScore (trgPhr new i) p.2
  (p.1.add w r.1, r.2)

/-- `extensionScore` of `LangModelFeat`: the state is computed again from the whole partial translation.
LangModelFeat.cc:48-109. -/
def extLm (m : LM R) (n : Nat) (w sc : R) (pred new : HypData) : Acc R × LMState :=
  let p := (newSegms pred new).foldl (lmIter m w new) (⟨sc, 0⟩, m.addWords pred.ntarget.tail m.bos)
  if numCovered new = n then (p.1.add w (m.eos p.2), m.eosNext p.2) else p

/-- One iteration of the loop of the word penalty feature: score and `trglen`. WordPenaltyFeat.cc:61-79. -/
def wpIter (m : WP R) (w : R) (new : HypData) (p : Acc R × Nat) (i : Nat) : Acc R × Nat :=
  (p.1.add w (m.sum (p.2 + trgLenOf new i) - m.sum p.2), p.2 + trgLenOf new i)

/-- `extensionScore` of `WordPenaltyFeat`. WordPenaltyFeat.cc:47-91. -/
def extWp (m : WP R) (n : Nat) (w sc : R) (pred new : HypData) : Acc R :=
  let p := (newSegms pred new).foldl (wpIter m w new) (⟨sc, 0⟩, pred.ntarget.length - 1)
  if numCovered new = n then p.1.add w (m.score p.2 - m.sum p.2) else p.1

/-- Jump from the end of the previous segment (0 for the first one): `abs(start-(prevEnd+1))`.
SrcPosJumpFeat.cc:49-57. -/
def jumpOf (d : HypData) (i : Nat) : Nat :=
  (((segm d i).1 : Int) - ((if i = 0 then 0 else (segm d (i - 1)).2 : Nat) + 1)).natAbs

/-- `extensionScore` of `SrcPosJumpFeat`. SrcPosJumpFeat.cc:31-68. -/
def extJump (f : Nat → R) (w sc : R) (pred new : HypData) : Acc R :=
  (newSegms pred new).foldl (fun a i => a.add w (f (jumpOf new i))) ⟨sc, 0⟩

/-- `extensionScore` of `SrcPhraseLenFeat`. SrcPhraseLenFeat.cc:31-67. -/
def extSrcLen (t : SegmLen R) (n : Nat) (w sc : R) (pred new : HypData) : Acc R :=
  (newSegms pred new).foldl (fun a i => a.add w (t.lgProb i new.srcSegm n (trgLenOf new i))) ⟨sc, 0⟩

/-- One iteration of the loop of the target phrase length feature. TrgPhraseLenFeat.cc:45-65. -/
def trgLenIter (f : Nat → Nat → Nat → R) (w : R) (new : HypData) (p : Acc R × Nat) (i : Nat) : Acc R × Nat :=
  (p.1.add w (f (p.2 + trgLenOf new i) p.2 0), p.2 + trgLenOf new i)

/-- `extensionScore` of `TrgPhraseLenFeat`. TrgPhraseLenFeat.cc:31-72. -/
def extTrgLen (f : Nat → Nat → Nat → R) (w sc : R) (pred new : HypData) : Acc R :=
  ((newSegms pred new).foldl (trgLenIter f w new) (⟨sc, 0⟩, pred.ntarget.length - 1)).1

/-- `nullHypScore` of each feature: information and unweighted score. BasePbTransModelFeature.h:119-127,
LangModelFeat.cc:31-44, WordPenaltyFeat.cc:31-42. -/
def Feat.null (ft : Feat R) (w : R) (inf : Info R) : Info R × R :=
  match ft with
  | .lm m => (⟨inf.score, m.bos⟩, 0)
  | .wp m => (⟨inf.score + w * m.sum 0, inf.lmHist⟩, m.sum 0)
  | _ => (inf, 0)

/-- `extensionScore` of each feature for the source sentence `src`: information and unweighted score. -/
def Feat.ext (ft : Feat R) (src : List Str) (w : R) (inf : Info R) (pred new : HypData) : Info R × R :=
  match ft with
  | .phr f => let a := extPhr f src w inf.score pred new; (⟨a.score, inf.lmHist⟩, a.unw)
  | .lm m => let p := extLm m src.length w inf.score pred new; (⟨p.1.score, p.2⟩, p.1.unw)
  | .wp m => let a := extWp m src.length w inf.score pred new; (⟨a.score, inf.lmHist⟩, a.unw)
  | .jump f => let a := extJump f w inf.score pred new; (⟨a.score, inf.lmHist⟩, a.unw)
  | .srcLen t => let a := extSrcLen t src.length w inf.score pred new; (⟨a.score, inf.lmHist⟩, a.unw)
  | .trgLen f => let a := extTrgLen f w inf.score pred new; (⟨a.score, inf.lmHist⟩, a.unw)

/-- The loops over the features (standard, custom and on-the-fly, one after the other): the information goes through
all of them, one component is appended for each. PbTransModel.h:138-165, 265-293. -/
def overFeats (g : R → Feat R → Info R → Info R × R) : List (R × Feat R) → Info R → Info R × List R
  | [], inf => (inf, [])
  | (w, ft) :: fs, inf =>
    let r := g w ft inf
    let rs := overFeats g fs r.1
    (rs.1, r.2 :: rs.2)

/-- `nullHypothesisScrComps`; the language model state of a new `PhrScoreInfo` is empty. PbTransModel.h:122-171. -/
def nullScore (fs : List (R × Feat R)) : Info R × List R := overFeats (fun w ft i => ft.null w i) fs ⟨0, []⟩

/-- `incrScore`. PbTransModel.h:252-296. -/
def incrScore (fs : List (R × Feat R)) (src : List Str) (inf : Info R) (pred new : HypData) : Info R × List R :=
  overFeats (fun w ft i => ft.ext src w i pred new) fs inf

/-- A phrase added to a hypothesis: source segment and target words. -/
structure Step where
  l : Nat
  r : Nat
  trg : List Str
deriving DecidableEq, Repr

/-- Phrases added one after the other by `extendHypDataIdx`. PbTransModel.h:310-329. -/
def addSteps (d : HypData) (steps : List Step) : HypData := steps.foldl (fun d s => extend d s.l s.r s.trg) d

/-- A hypothesis with the component vectors returned while it was built. -/
structure Hyp (R : Type) where
  info : Info R
  data : HypData
  comps : List (List R)

/-- The null hypothesis. -/
def nullHyp (fs : List (R × Feat R)) : Hyp R := ⟨(nullScore fs).1, nullData, [(nullScore fs).2]⟩

/-- `incrScore` of an extension that adds several phrases (`extendHypData` with the new data). -/
def extHyp (fs : List (R × Feat R)) (src : List Str) (h : Hyp R) (g : List Step) : Hyp R :=
  let new := addSteps h.data g
  let r := incrScore fs src h.info h.data new
  ⟨r.1, new, h.comps ++ [r.2]⟩

/-- A hypothesis built from the null hypothesis by any sequence of extensions. -/
def buildHyp (fs : List (R × Feat R)) (src : List Str) (groups : List (List Step)) : Hyp R :=
  groups.foldl (extHyp fs src) (nullHyp fs)

/-- `PhrHypState`. PhrHypState.h. -/
structure HState where
  lmHist : LMState
  trglen : Nat
  endLast : Nat
  cov : Nat → Bool

/-- `getHypState`. PhraseBasedTmHypRec.h:70-83. -/
def hypState (h : Hyp R) : HState :=
  ⟨h.info.lmHist, h.data.ntarget.length - 1, if h.data.srcSegm.length = 0 then 0 else (h.data.srcSegm.getLast?.getD (0, 0)).2,
   covered h.data⟩

end
end Thot.Feat
