import Verif.Vocab.Props
/-!
Model of the word confidences of `/repo/src/sw_models/ThotIbmMaxConfid.cc`.

The word alignment model is a function `p` of the codes of a source and a target word (`pts`), with the code 0 for the NULL word, and the
vocabularies are functions `sc`, `tc`. Numbers are exact rationals (`float` in the program). A range error or the overflow of `atoi` (both
undefined behaviour) is `none`.
-/
namespace Thot.Confid

open Thot

abbrev W := List Char

/-- `isupper` in the C locale. -/
def isUpper (c : Char) : Bool := decide ('A' ≤ c ∧ c ≤ 'Z')
/-- `tolower` in the C locale. -/
def toLow (c : Char) : Char := if isUpper c then Char.ofNat (c.toNat + 32) else c

/-- ThotIbmMaxConfid.cc:67, 74 (the character after the last one is the null character). -/
def capital (w : W) : Bool := isUpper (w.getD 0 '\x00') && !isUpper (w.getD 1 '\x00')

/-- ThotIbmMaxConfid.cc:68, 75 `transform` of the first character. -/
def lowerFirst : W → W
  | [] => []
  | c :: cs => toLow c :: cs

/-- `if(nconf2 > nconf) nconf=nconf2`. -/
def up (nconf nconf2 : Rat) : Rat := if nconf < nconf2 then nconf2 else nconf

/-- The two words with the target in lower case (ThotIbmMaxConfid.cc:63-72). -/
def afterTrg (sc tc : W → Nat) (p : Nat → Nat → Rat) (t s : W) : Rat :=
  if capital t then up (p (sc s) (tc t)) (p (sc s) (tc (lowerFirst t))) else p (sc s) (tc t)

/-- The same and the source in lower case (ThotIbmMaxConfid.cc:73-79). -/
def afterSrc (sc tc : W → Nat) (p : Nat → Nat → Rat) (t s : W) : Rat :=
  if capital s then up (afterTrg sc tc p t s) (p (sc (lowerFirst s)) (tc t)) else afterTrg sc tc p t s

/-- A number that is copied (ThotIbmMaxConfid.cc:81). -/
def copied (t s : W) : Bool := decide (Vocab.atoi t ≠ some 0 ∧ t = s)

/-- The confidence for a source word (ThotIbmMaxConfid.cc:63-81). -/
def pairConf (sc tc : W → Nat) (p : Nat → Nat → Rat) (t s : W) : Rat := if copied t s then 1 else afterSrc sc tc p t s

/-- The confidence of a target word (ThotIbmMaxConfid.cc:59-86). -/
def wordConf (sc tc : W → Nat) (p : Nat → Nat → Rat) (source : List W) (t : W) (validated : Bool) : Rat :=
  if validated then 1 else source.foldl (fun c s => up c (pairConf sc tc p t s)) (p 0 (tc t))

/-- `getWordConfidences` (ThotIbmMaxConfid.cc:31-89). -/
def wordConfs (sc tc : W → Nat) (p : Nat → Nat → Rat) (source target : List W) (validated : List Bool) : Option (List Rat) :=
  if validated.length < target.length then none
  else if source ≠ [] ∧ target.any (fun t => (Vocab.atoi t).isNone) then none
  else some (List.zipWith (wordConf sc tc p source) target validated)

/-- `getSentenceConfidence` (ThotIbmMaxConfid.cc:92-108); `none` also for a division by zero. -/
def sentConf (sc tc : W → Nat) (p : Nat → Nat → Rat) (source target : List W) (validated : List Bool) : Option Rat :=
  match wordConfs sc tc p source target validated with
  | some cs => if cs.length = 0 then none else some (cs.foldl (· + ·) 0 / cs.length)
  | none => none

end Thot.Confid
