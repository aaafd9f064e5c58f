import Verif.Feat.Recomb
import Verif.Bitset.Props

/-! Model of the heuristics that use the features (`_pbTransModel.h:1398-1538`, `LangModelFeat.h:133-160`,
`SrcPosJumpFeat.h:105-146`), of the order of hypothesis states (`PhrHypState.cc`) and of the equivalence classes that
select the stack of a hypothesis (`PhrHypNumcovJumpsEqClassF.cc`, `PhrHypNumcovJumps01EqClassF.cc`). -/
namespace Thot.Feat
open Thot.StrProc (Str)
open Thot.Meta (Segm)
open Thot.Search (HypData extend nullData covered)

section
variable {R : Type} [CommRing R]

/-- The loop of `scoreTrgSentence`: cumulative scores of the words, then of the end of the sentence (which is not
weighted). LangModelFeat.h:133-160. -/
def trgSentLoop (m : LM R) (w : R) : List Str → LMState → R → List R
  | [], st, fin => [fin + m.eos st]
  | x :: xs, st, fin =>
    let r := m.ngramScore [x] st
    (fin + w * r.1) :: trgSentLoop m w xs r.2 (fin + w * r.1)

/-- `scoreTrgSentence`: `cumulativeScoreVec`. LangModelFeat.h:133-160. -/
def scoreTrgSentence (m : LM R) (w : R) (sent : List Str) : List R := trgSentLoop m w sent m.bos 0

/-- Update of the vector of the heuristic with the scores of one model: append the entries it does not have, add the
others. _pbTransModel.h:1416-1422, 1448-1454. -/
def addVec : List R → List R → List R
  | acc, [] => acc
  | [], ys => ys
  | x :: acc, y :: ys => (x + y) :: addVec acc ys

/-- One feature of the loop that fills the vector of the heuristic. -/
def heurStep (sent : List Str) (acc : List R) (p : R × Feat R) : List R :=
  match p.2 with | .lm m => addVec acc (scoreTrgSentence m p.1 sent) | _ => acc

/-- `refHeurLmLgProb` (or `prefHeurLmLgProb`), computed when it is empty from the language model features (with their
weights). _pbTransModel.h:1405-1423, 1437-1455. -/
def heurVec (fs : List (R × Feat R)) (sent : List Str) : List R :=
  fs.foldl (heurStep sent) []

/-- `calcRefLmHeurScore` for a partial translation of `len` words; `none` when it reads outside of the vector.
_pbTransModel.h:1398-1431. -/
def refHeur (fs : List (R × Feat R)) (ref : List Str) (len : Nat) : Option R :=
  match (heurVec fs ref).getLast? with
  | none => none
  | some back => if len = 0 then some back else (heurVec fs ref)[len - 1]?.map fun x => back - x

/-- `calcPrefLmHeurScore`. _pbTransModel.h:1433-1468. -/
def prefHeur (fs : List (R × Feat R)) (pref : List Str) (len : Nat) : Option R :=
  if pref.length ≤ len then some 0 else
  match (heurVec fs pref).getLast? with
  | none => none
  | some back => if len = 0 then some back else (heurVec fs pref)[len - 1]?.map fun x => back - x

/-- `min_jumps`. SrcPosJumpFeat.h:128-146. -/
def minJumps : Nat → List Segm → List Nat
  | _, [] => []
  | j, g :: gs => (if g.1 < j then j - g.1 else g.1 - j) :: minJumps g.2 gs

/-- `getDistortionHeurScore`: the sum of `calcHeurScore` over the jump features (without their weights).
_pbTransModel.h:1520-1538, SrcPosJumpFeat.h:105-114. -/
def distHeur (fs : List (R × Feat R)) (gaps : List Segm) (last : Nat) : R :=
  (fs.map fun p => match p.2 with | .jump f => ((minJumps last gaps).map f).sum | _ => 0).sum

end

/-- Lexicographic `operator<` of `std::vector<WordIndex>`. -/
def vecLt : List Nat → List Nat → Bool
  | _, [] => false
  | [], _ :: _ => true
  | a :: as, b :: bs => if a < b then true else if b < a then false else vecLt as bs

/-- `PhrHypState` with the coverage as the words of the bitset. PhrHypState.h:52-73. -/
structure PState where
  lmHist : LMState
  trglen : Nat
  endLast : Nat
  cov : Bitset.Words
deriving DecidableEq

/-- `PhrHypState::operator<`. PhrHypState.cc:31-41. -/
def PState.lt (a b : PState) : Bool :=
  if vecLt a.lmHist b.lmHist then false else if vecLt b.lmHist a.lmHist then true
  else if a.trglen < b.trglen then false else if b.trglen < a.trglen then true
  else if a.endLast < b.endLast then false else if b.endLast < a.endLast then true
  else Bitset.lt a.cov b.cov

/-- The loop of the equivalence class: number of covered words and number of jumps; `k` is the index of the segment and
`prev` the end of the one before. PhrHypNumcovJumpsEqClassF.cc:33-63. -/
def eqLoop : Nat → Nat → List Segm → Nat × Nat → Nat × Nat
  | _, _, [], c => c
  | k, prev, s :: ss, c =>
    let jumped := if k = 0 then 1 < s.1 else prev + 1 ≠ s.1
    eqLoop (k + 1) s.2 ss (c.1 + (s.2 - s.1 + 1), if jumped then c.2 + 1 else c.2)

/-- `PhrHypNumcovJumpsEqClassF::operator()`. -/
def eqClass (d : HypData) : Nat × Nat := eqLoop 0 0 d.srcSegm (0, 0)

/-- `PhrHypNumcovJumps01EqClassF`: the second component is at most one. PhrHypNumcovJumps01EqClassF.cc:33-36. -/
def eqClass01 (d : HypData) : Nat × Nat := ((eqClass d).1, if 1 < (eqClass d).2 then 1 else (eqClass d).2)

end Thot.Feat
