import Verif.EditDist.WordProps
import Mathlib.Analysis.SpecialFunctions.Log.Basic

/-!
# Model of the parameters of the error correction model and of the corrector of plain translations

`src/error_correction/PfsmEcm.cc` (constructor, `setWeights`, `setErrorModel`,
`obtainErrorProbsFromParams`) and `src/error_correction/NonPbEcModelForNbUcat.cc` (`correct` and all it
calls).

Simplifications: the parameters are real numbers instead of `float`s (no rounding); the warnings and the
verbose output are dropped.  In `NonPbEcModelForNbUcat` scores are rationals as in the model of the edit
distance; `log(1.0)` is 0; an access outside a vector gives `none`.
-/

namespace Thot.Ecm

open Thot.EditDist (Str Score Costs correctStrGivenPref wordPrefix)

/-! ## `PfsmEcm` -/

/-- The costs handed to the edit distance, `PfsmEcm.cc:161-165`. -/
structure RCosts where
  hit : ℝ
  ins : ℝ
  subst : ℝ
  del : ℝ

/-- The members of `PfsmEcm` used here, `PfsmEcm.h:109-112`: the weights and the costs set in the edit
distance. -/
structure Pfsm where
  pars : List ℝ
  costs : RCosts

/-- The constant `e` of `obtainErrorProbsFromParams`, `PfsmEcm.cc:179-184`. -/
noncomputable def eConst (v hp i s d : ℝ) : ℝ :=
  if v = 0 then (1 - hp) / (i + s + d) else (1 - hp) / (i * v + s * (v - 1) + d * 1)

/-- `obtainErrorProbsFromParams`, `PfsmEcm.cc:169-190`: the probabilities of an insertion, a substitution
and a deletion. -/
noncomputable def errorProbs (v hp i s d : ℝ) : ℝ × ℝ × ℝ :=
  (eConst v hp i s d * i, eConst v hp i s d * s, eConst v hp i s d * d)

/-- `setErrorModel`, `PfsmEcm.cc:143-166`. -/
noncomputable def setErrorModel (v hp i s d : ℝ) : RCosts :=
  ⟨-Real.log hp, -Real.log (errorProbs v hp i s d).1, -Real.log (errorProbs v hp i s d).2.1,
    -Real.log (errorProbs v hp i s d).2.2⟩

/-- Constructor, `PfsmEcm.cc:33-45`, with the default values of `PfsmEcm.h:46-50`. -/
noncomputable def Pfsm.init : Pfsm :=
  ⟨[128, 0.8, 1, 1, 1], setErrorModel 128 0.8 1 1 1⟩

open Classical in
/-- `weights_le_zero`, `PfsmEcm.cc:81-89`. -/
noncomputable def weightsLeZero : List ℝ → Bool
  | [] => false
  | x :: xs => if x ≤ 0 then true else weightsLeZero xs

open Classical in
/-- `setWeights`, `PfsmEcm.cc:66-105`. -/
noncomputable def Pfsm.setWeights (e : Pfsm) : List ℝ → Pfsm
  | [v, hp, i, s, d] =>
    if ¬ hp ≥ 1 ∧ weightsLeZero [v, hp, i, s, d] = false then
      ⟨[v, hp, i, s, d], setErrorModel v hp i s d⟩
    else e
  | _ => e

/-! ## `NonPbEcModelForNbUcat` -/

/-- `n-1` for an `unsigned int`. -/
def pred32 (n : Nat) : Nat := (n + 2 ^ 32 - 1) % 2 ^ 32

/-- The loop `for(j=left;j<=right;++j) segm.push_back(v[j])`. -/
def copyRange (v : List Str) (left right : Nat) : Option (List Str) :=
  (List.range' left (right + 1 - left)).mapM fun j => v[j]?

/-- `obtainVectorWithSegms`, `NonPbEcModelForNbUcat.cc:116-145`; `left` is the first position of the next
segment. -/
def segmsFrom (sent : List Str) : Nat → List Nat → Option (List (List Str))
  | _, [] => some []
  | left, c :: cs =>
    (copyRange sent left c).bind fun s => (segmsFrom sent (c + 1) cs).map (s :: ·)

/-- The number `l` of source cuts up to the last cut of the alignment, `NonPbEcModelForNbUcat.cc:180-184`. -/
def countCuts (last : Nat) : List Nat → Nat
  | [] => 0
  | c :: cs => if c ≤ last then countCuts last cs + 1 else 0

/-- `PrefAlignInfo`, `PrefAlignInfo.h:27-31`. -/
structure PrefAlignInfo where
  transCuts : List Nat
  prefCuts : List Nat

/-- The words of the prefix before its last segment and the last segment,
`NonPbEcModelForNbUcat.cc:189-203`. -/
def splitPref (pref : List Str) (cuts : List Nat) : Option (List Str × List Str) :=
  (segmsFrom pref 0 cuts).map fun ss => (ss.dropLast.flatten, ss.getLast?.getD [])

/-- `getLastOutSegm`, `NonPbEcModelForNbUcat.cc:236-251`. -/
def getLastOutSegm (x : List Str) (cuts : List Nat) : Option (List Str) :=
  match cuts.getLast? with
  | none => none
  | some right =>
    if cuts.length = 1 then copyRange x 0 right
    else (cuts[cuts.length - 2]?).bind fun c => copyRange x (c + 1) right

/-- The last step of `correctedSent`, `NonPbEcModelForNbUcat.cc:226-231`: the blank at the end of the
prefix is put back if the correction ends with the last word of the prefix. -/
def restoreBlank (corr lastPref : List Str) : Option (List Str) :=
  lastPref.getLast?.bind fun l =>
    l.getLast?.bind fun c =>
      if c = ' ' then
        corr.getLast?.bind fun w =>
          if w ++ [' '] = l then some (corr.dropLast ++ [l]) else some corr
      else some corr

/-- The part of `correctedSent` for an aligned last segment, `NonPbEcModelForNbUcat.cc:204-214`. -/
def addLastSegm (k : Costs) (out pref corr : List Str) (transCuts : List Nat) (l : Nat) : Option (List Str) :=
  if l > 0 then
    (getLastOutSegm out transCuts).bind fun seg =>
      (correctStrGivenPref k seg pref).map (corr ++ ·)
  else some corr

/-- The value of `l`, `NonPbEcModelForNbUcat.cc:176-186`. -/
def numCuts (transCuts sourceCuts : List Nat) : Nat :=
  match transCuts.getLast? with
  | none => 0
  | some last => countCuts last sourceCuts

/-- `correctedSent`, `NonPbEcModelForNbUcat.cc:166-234`. -/
def correctedSent (k : Costs) (out pref : List Str) (sourceCuts : List Nat) (segms : List (List Str))
    (info : PrefAlignInfo) : Option (List Str) :=
  (splitPref pref info.prefCuts).bind fun sp =>
    (addLastSegm k out sp.2 sp.1 info.transCuts
        (numCuts info.transCuts sourceCuts)).bind fun corr =>
      if numCuts info.transCuts sourceCuts < segms.length then
        some (corr ++ (segms.drop (numCuts info.transCuts sourceCuts)).flatten)
      else restoreBlank corr sp.2

/-- `addSegm` and `removeLastFromMonolingSegmNbest` on an empty list, `NonPbEcModelForNbUcat.cc:147-163`. -/
def addSegm (maxMapSize : Nat) (sc : Score) (info : PrefAlignInfo) : List (Score × PrefAlignInfo) :=
  if 1 > maxMapSize then [] else [(sc, info)]

/-- `nonPhraseBasedAlign`, `NonPbEcModelForNbUcat.cc:66-113`, after the source cuts and segments were
set. -/
def align (k : Costs) (out pref : List Str) (maxMapSize : Nat) : Option (List (Score × PrefAlignInfo)) :=
  if pref.length = 0 then some (addSegm maxMapSize 0 ⟨[], []⟩)
  else (wordPrefix k out pref).map fun d =>
    addSegm maxMapSize (-d) ⟨[pred32 out.length], [pred32 pref.length]⟩

/-- The loop of `correct` over the n-best list, `NonPbEcModelForNbUcat.cc:58-61`. -/
def correctAll (f : PrefAlignInfo → Option (List Str)) :
    List (Score × PrefAlignInfo) → Option (List (Score × List Str))
  | [] => some []
  | e :: es => (f e.2).bind fun s => (correctAll f es).map ((e.1, s) :: ·)

/-- `correct`, `NonPbEcModelForNbUcat.cc:46-63`. -/
def correct (k : Costs) (out pref : List Str) (maxMapSize : Nat) : Option (List (Score × List Str)) :=
  (segmsFrom out 0 [pred32 out.length]).bind fun segms =>
    (align k out pref maxMapSize).bind fun nb =>
      correctAll (correctedSent k out pref [pred32 out.length] segms) nb

end Thot.Ecm
