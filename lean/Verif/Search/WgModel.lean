import Verif.Search.DecModel
import Verif.WordGraph.Model

/-!
Model of the construction of a word graph during the search (`/repo/src/stack_dec/_stackDecoderRec.h`): the search loops
of `Search/DecModel.lean` with the word graph.
-/
namespace Thot.Search
open Thot.StrProc (Str)
open Thot.WordGraph (WG)

variable {S : Type} [DecidableEq S]

/-- `wordGraphEnabled`, `scoreCompsInWgIncluded`, and the score components of an expansion without the weights
(`getUnweightedComps` of the components computed by the expansion functions), an arbitrary function.
_stackDecoderRec.h:94-95, 301-306. -/
structure WgOpts where
  enabled : Bool
  withComps : Bool
  unweighted : HypData → HypData → List WordGraph.Score

/-- `getTransInPlainTextVec`. _pbTransModel.h:1657-1668. -/
def plainText (m : Mode) (I : Input) (d : HypData) : Option (List Str) :=
  match m with
  | .trans => textTs I d
  | .pref => some (textTps I d)
  | .ref => some (textTrs I d)
  | .ver => some (textTrs I d)

/-- The calls `setInitialStateScore` and `addFinalState` of `addArcToWordGraph`. _stackDecoderRec.h:273-286. -/
def prepareArc (M : Model) (n : Nat) (i j : Nat) (p q : Hyp) (g : WG) : WG :=
  let g1 := if i = WordGraph.initialState then WordGraph.setInitialStateScore g (p.score + M.heur p.data : Int) else g
  if isComplete n q.data then WordGraph.addFinalState g1 j else g1

/-- The rest of `addArcToWordGraph`. _stackDecoderRec.h:288-322. -/
def putArc (o : WgOpts) (m : Mode) (M : Model) (I : Input) (i j : Nat) (p q : Hyp) (g : WG) : Option WG :=
  match plainText m I p.data, plainText m I q.data with
  | some tp, some tq =>
    let words := tq.drop tp.length
    let sc : WordGraph.Score := ((q.score + M.heur q.data) - (p.score + M.heur p.data) : Int)
    if o.withComps then WordGraph.addArcWithScrComps g i j words sc (o.unweighted p.data q.data)
    else WordGraph.addArc g i j words sc
  | _, _ => none

/-- `addArcToWordGraph` with `getHypStateIndex`. _stackDecoderRec.h:255-350. -/
def addArcTo (o : WgOpts) (m : Mode) (D : Dec S) (M : Model) (I : Input) (ms : MultiStack.MS S HypData) (g : WG) (p q : Hyp) :
    Option WG :=
  if o.enabled then
    match AMap.lk ms.dict (D.st p.data), AMap.lk ms.dict (D.st q.data) with
    | some (i, _), some (j, _) => putArc o m M I i j p q (prepareArc M I.src.length i j p q g)
    | _, _ => some g
  else some g

/-- The pushes of the expanded hypotheses of `p` (`pushGivenPredHyp`). _stackDecoderRec.h:242-252. -/
def pushAllW (o : WgOpts) (m : Mode) (D : Dec S) (M : Model) (I : Input) (p : Hyp) :
    List Hyp → DState S → WG → Option (DState S × WG)
  | [], s, g => some (s, g)
  | h :: hs, s, g =>
    match decPush D M I.src.length s h with
    | none => none
    | some r =>
      match addArcTo o m D M I r.2.ms g p h with
      | none => none
      | some g1 => pushAllW o m D M I p hs r.2 g1

/-- As `handle`. -/
def handleW (o : WgOpts) (m : Mode) (D : Dec S) (M : Model) (I : Input) (L : Loop S) (g : WG) (h : Hyp) :
    Option (Loop S × WG) :=
  if isComplete I.src.length h.data then
    if L.ended = false then some (⟨true, h, L.s⟩, g)
    else (decPush D M I.src.length L.s h).map fun r => ({ L with s := r.2 }, g)
  else
    match expandMode m M I h with
    | none => none
    | some hs =>
      (pushAllW o m D M I h hs.reverse L.s g).map fun r => (⟨L.ended, updateResult m I.src.length L.result h, r.1⟩, r.2)

/-- As `handleAll`. -/
def handleAllW (o : WgOpts) (m : Mode) (D : Dec S) (M : Model) (I : Input) : List Hyp → Loop S → WG → Option (Loop S × WG)
  | [], L, g => some (L, g)
  | h :: hs, L, g =>
    match handleW o m D M I L g h with
    | none => none
    | some r => handleAllW o m D M I hs r.1 r.2

/-- As `decLoop`. -/
def decLoopW (o : WgOpts) (m : Mode) (D : Dec S) (M : Model) (I : Input) : Nat → Loop S → WG → Option (Loop S × WG)
  | 0, L, g => some (L, g)
  | k + 1, L, g =>
    if L.ended then some (L, g)
    else
      match popUpTo D M I.src.length D.I L.s with
      | none => none
      | some ([], s) => some ({ L with ended := true, s := s }, g)
      | some (hs, s) =>
        match handleAllW o m D M I hs { L with s := s } g with
        | none => none
        | some r => decLoopW o m D M I k r.1 r.2

/-- `post_trans_actions`, called by `translate` only. _stackDecoderRec.h:227-239, _stackDecoder.h:398. -/
def postTrans (m : Mode) (D : Dec S) (I : Input) (L : Loop S) (g : WG) : WG :=
  if m = .trans ∧ isComplete I.src.length L.result.data = false then
    WordGraph.addFinalState g (((AMap.lk L.s.ms.dict (D.st L.result.data)).map Prod.fst).getD 0)
  else g

/-- `translate` and the like, with the word graph left by previous operations. -/
def translateW (o : WgOpts) (m : Mode) (D : Dec S) (M : Model) (I : Input) (ms : MultiStack.MS S HypData) (g : WG) :
    Option (Loop S × WG) :=
  if lengthsOk m I then
    match decPush D M I.src.length ⟨MultiStack.clearAll ms, D.worst⟩ (nullHyp M) with
    | none => none
    | some r =>
      (decLoopW o m D M I (D.maxIter - 1) ⟨false, nullHyp M, r.2⟩ (WordGraph.clear g)).map fun x =>
        (x.1, postTrans m D I x.1 x.2)
  else some (⟨true, nullHyp M, ⟨MultiStack.clearAll ms, D.worst⟩⟩, WordGraph.clear g)

/-- `getNextTrans`. _stackDecoder.h:323-357. -/
def nextTransW (o : WgOpts) (m : Mode) (D : Dec S) (M : Model) (I : Input) (s : DState S) (g : WG) : Option (Loop S × WG) :=
  decLoopW o m D M I (D.maxIter - 1) ⟨false, nullHyp M, { s with best := D.worst }⟩ g

end Thot.Search
