import Verif.Search.Model
import Verif.MultiStack.Model

/-!
Model of the search loops of `/repo/src/stack_dec/_stackDecoder.h`, `_stackDecoderRec.h` and
`multi_stack_decoder_rec.h` (the container is an `SmtMultiStackRec`) over the model of hypothesis expansion.

Simplifications: scores are exact (in the code `(score+heuristic)-heuristic` is rounded); word graphs and statistics are
in another file or left out; the copy `bestCompleteHyp` is never read and is left out.
-/
namespace Thot.Search
open Thot.StrProc (Str)

/-- Parameters of the decoder (`I`, `breadthFirst`, `applyBestScorePruning`, `-FLT_MAX`, `worstScoreAllowed`,
`MAX_NUM_OF_ITER`, `G_EPSILON`), and the recombination state and equivalence class of a hypothesis
(`getHypState`, `getEqClass`), as arbitrary functions of its data. _stackDecoder.h:51-53, 160-185. -/
structure Dec (S : Type) where
  I : Nat
  breadthFirst : Bool
  pruning : Bool
  minScore : Int
  worst : Int
  maxIter : Nat
  G : Int
  st : HypData → S
  cls : HypData → Nat

/-- `stack_ptr` (with the dictionary of states) and `bestCompleteHypScore`. _stackDecoder.h:165-180. -/
structure DState (S : Type) where
  ms : MultiStack.MS S HypData
  best : Int

variable {S : Type} [DecidableEq S]

/-- What `push` adds to the score of a hypothesis (`addHeuristicToHyp`, `addgToHyp`). _stackDecoder.h:292-300, 759-761. -/
def extra (D : Dec S) (M : Model) (n : Nat) (d : HypData) : Int :=
  M.heur d + if D.breadthFirst then (distToNull n d : Int) * D.G else 0

/-- A hypothesis as it is stored in the container. -/
def stored (D : Dec S) (M : Model) (n : Nat) (h : Hyp) : MultiStack.Hyp S HypData :=
  ⟨h.score + extra D M n h.data, D.st h.data, D.cls h.data, h.data⟩

/-- A stored hypothesis after `pop` (`subtractgToHyp`, `subtractHeuristicToHyp`). _stackDecoder.h:304-312, 834-843. -/
def back (D : Dec S) (M : Model) (n : Nat) (x : MultiStack.Hyp S HypData) : Hyp := ⟨x.score - extra D M n x.data, x.data⟩

/-- `push`. _stackDecoder.h:748-803. -/
def decPush (D : Dec S) (M : Model) (n : Nat) (s : DState S) (h : Hyp) : Option (Bool × DState S) :=
  if h.score ≥ D.minScore then
    let x := stored D M n h
    if D.pruning = true ∧ x.score < s.best then some (false, s)
    else
      match MultiStack.push s.ms x with
      | none => none
      | some (ok, ms') => some (ok, ⟨ms', if ok = true ∧ isComplete n h.data = true then x.score else s.best⟩)
  else some (false, s)

/-- The calls to the container in `pop`. _stackDecoder.h:808-833, 842. -/
def popStored (D : Dec S) (n : Nat) (ms : MultiStack.MS S HypData) :
    Option (MultiStack.Elem S HypData × MultiStack.MS S HypData) :=
  if D.breadthFirst then
    match MultiStack.top 0 (MultiStack.setBf ms true) with
    | none => none
    | some t =>
      if isComplete n t.2.2.data then
        (MultiStack.pop (MultiStack.setBf ms false)).map fun r => (r.1, MultiStack.setBf r.2 true)
      else MultiStack.pop (MultiStack.setBf ms true)
  else MultiStack.pop ms

/-- `pop`. _stackDecoder.h:806-846. -/
def decPop (D : Dec S) (M : Model) (n : Nat) (s : DState S) : Option (Hyp × DState S) :=
  (popStored D n s.ms).map fun r => (back D M n r.1.2.2, { s with ms := r.2 })

/-- Selection of the hypotheses to be expanded; `k` is the number still missing. _stackDecoder.h:878-882. -/
def popUpTo (D : Dec S) (M : Model) (n : Nat) : Nat → DState S → Option (List Hyp × DState S)
  | 0, s => some ([], s)
  | k + 1, s =>
    if MultiStack.empty s.ms then some ([], s)
    else
      match decPop D M n s with
      | none => none
      | some (h, s1) => (popUpTo D M n k s1).map fun r => (h :: r.1, r.2)

/-- The variables of the loop: `end`, `result` and the decoder. -/
structure Loop (S : Type) where
  ended : Bool
  result : Hyp
  s : DState S

/-- The pushes of the expanded hypotheses, in the given order. _stackDecoder.h:944-960. -/
def pushAll (D : Dec S) (M : Model) (n : Nat) : List Hyp → DState S → Option (DState S)
  | [], s => some s
  | h :: hs, s =>
    match decPush D M n s h with
    | none => none
    | some r => pushAll D M n hs r.2

/-- `result` after the expansion of an incomplete hypothesis: only `decode` updates it. _stackDecoder.h:929-940. -/
def updateResult (m : Mode) (n : Nat) (r h : Hyp) : Hyp :=
  if m = .trans then
    if distToNull n r.data < distToNull n h.data then h
    else if distToNull n r.data = distToNull n h.data ∧ r.score < h.score then h
    else r
  else r

/-- One step of the `for` loop. The expanded hypotheses are pushed from the last one to the first one.
_stackDecoder.h:899-962 (decode), 1018-1071, 1125-1178, 1231-1284. -/
def handle (m : Mode) (D : Dec S) (M : Model) (I : Input) (L : Loop S) (h : Hyp) : Option (Loop S) :=
  if isComplete I.src.length h.data then
    if L.ended = false then some ⟨true, h, L.s⟩
    else (decPush D M I.src.length L.s h).map fun r => { L with s := r.2 }
  else
    match expandMode m M I h with
    | none => none
    | some hs =>
      (pushAll D M I.src.length hs.reverse L.s).map fun s => ⟨L.ended, updateResult m I.src.length L.result h, s⟩

/-- The `for` loop. -/
def handleAll (m : Mode) (D : Dec S) (M : Model) (I : Input) : List Hyp → Loop S → Option (Loop S)
  | [], L => some L
  | h :: hs, L =>
    match handle m D M I L h with
    | none => none
    | some L' => handleAll m D M I hs L'

/-- The `while` loop with `k` iterations left. _stackDecoder.h:868-970, 990-1077, 1080-1184, 1187-1290. -/
def decLoop (m : Mode) (D : Dec S) (M : Model) (I : Input) : Nat → Loop S → Option (Loop S)
  | 0, L => some L
  | k + 1, L =>
    if L.ended then some L
    else
      match popUpTo D M I.src.length D.I L.s with
      | none => none
      | some ([], s) => some { L with ended := true, s := s }
      | some (hs, s) =>
        match handleAll m D M I hs { L with s := s } with
        | none => none
        | some L' => decLoop m D M I k L'

/-- `nullHypothesis`. PbTransModel.h:122-171. -/
def nullHyp (M : Model) : Hyp := ⟨M.nullScore, nullData⟩

/-- `decode`, `decodeWithRef`, `decodeVer`, `decodeWithPrefix`: `MAX_NUM_OF_ITER-1` iterations at most. -/
def decode (m : Mode) (D : Dec S) (M : Model) (I : Input) (s : DState S) : Option (Loop S) :=
  decLoop m D M I (D.maxIter - 1) ⟨false, nullHyp M, s⟩

/-- `MAX_SENTENCE_LENGTH_ALLOWED`. SmtDefs.h:24. -/
def maxSentLen : Nat := 160

/-- Length of the second argument of the translation functions; `translate` has none. -/
def otherLen (m : Mode) (I : Input) : Nat :=
  match m with
  | .trans => 1
  | .ref => I.ref.length
  | .ver => I.ref.length
  | .pref => I.pref.length

/-- The sentences are translated: neither empty nor too long. _stackDecoder.h:428-447, 480-499, 532-551, 661-672. -/
def lengthsOk (m : Mode) (I : Input) : Bool :=
  decide (I.src.length < maxSentLen) && decide (otherLen m I < maxSentLen) && decide (I.src.length ≠ 0) &&
    decide (otherLen m I ≠ 0)

/-- `translate`, `translateWithRef`, `verifyCoverageForRef`, `translateWithPrefix` with the container left by previous
operations. _stackDecoder.h:317-320, 363-402, 408-453, 460-505, 512-557, clear: _stackDecoderRec.h:218-224. -/
def translate (m : Mode) (D : Dec S) (M : Model) (I : Input) (ms : MultiStack.MS S HypData) : Option (Loop S) :=
  if lengthsOk m I then
    match decPush D M I.src.length ⟨MultiStack.clearAll ms, D.worst⟩ (nullHyp M) with
    | none => none
    | some r => decode m D M I r.2
  else some ⟨true, nullHyp M, ⟨MultiStack.clearAll ms, D.worst⟩⟩

/-- `getNextTrans`. _stackDecoder.h:323-357. -/
def nextTrans (m : Mode) (D : Dec S) (M : Model) (I : Input) (s : DState S) : Option (Loop S) :=
  decode m D M I { s with best := D.worst }

end Thot.Search
