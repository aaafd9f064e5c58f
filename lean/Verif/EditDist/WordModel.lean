import Verif.EditDist.Model

/-!
# Model of `EditDistForVecString` and of `_editDistBasedEcm`

Word-level edit distance in which the substitution of a word costs the character-level edit distance,
and the correction of a sentence given a user prefix.
-/

namespace Thot.EditDist

/-- `EditDistForVecString::insertionCost`, `EditDistForVecString.h:167-174`. -/
def wordInsCost (k : Costs) (s : Str) : Score := k.ins * s.length

/-- `EditDistForVecString::deletionCost`, `EditDistForVecString.h:176-183`. -/
def wordDelCost (k : Costs) (s : Str) : Score := k.del * s.length

/-- `hitCost*hCount+insCost*iCount+substCost*sCount+delCost*dCount`,
`EditDistForVecString.h:202`, `230-233`. -/
def linCost (k : Costs) (c : OpCounts) : Score := k.hit * c.h + k.ins * c.i + k.subst * c.s + k.del * c.d

/-- `EditDistForVecString::substitutionCost`, `EditDistForVecString.h:189-204`. -/
def wordSubstCost (k : Costs) (a b : Str) : Option Score :=
  (calculateEditDistOps k a b).map fun r => linCost k r.2.1

/-- `EditDistForVecString::prefSubstitutionCost`, `EditDistForVecString.h:210-235`. -/
def wordPrefSubstCost (k : Costs) (a b : Str) : Option Score :=
  (strPrefixOps k a b).map fun r => linCost k (countOps r.2)

/-- `addBlankCharacters`, `EditDistForVecString.cc:161-168`: its parameter is passed by value, so the
call has no effect on the caller. -/
def addBlankCharacters (v : List Str) : List Str := v

/-- `EditDistForVecString::processMatrixCell`, `EditDistForVecString.cc:302-377`. -/
def cellWord (k : Costs) (x y : List Str) (dm : DistMatrix) (i j : Nat) : Option CellRes :=
  if i ≠ 0 ∧ j ≠ 0 then do
    let a ← x[i - 1]?
    let b ← y[j - 1]?
    let sc ← wordSubstCost k a b
    interior dm i j sc (if a = b then .hit else .subst) (wordDelCost k a) .del (wordInsCost k b)
  else border dm i j (x[i - 1]?.map (wordDelCost k)) (y[j - 1]?.map (wordInsCost k))

/-- `EditDistForVecString::calculateEditDist`, `EditDistForVecString.cc:37-53`. -/
def wordEditDist (k : Costs) (x y : List Str) : Option Score := do
  let x := addBlankCharacters x
  let y := addBlankCharacters y
  let dm ← fillMatrix (pureCell (cellWord k x y)) () x.length y.length
  rd dm x.length y.length

/-- `SubstCostMap`, `EditDistForVecString.h:49`, as an association list. -/
abbrev SubstCostMap := List ((Str × Str) × Score)

/-- `substCostMap.find(key)`. -/
def findCost : SubstCostMap → Str × Str → Option Score
  | [], _ => Option.none
  | e :: m, key => if e.1 = key then some e.2 else findCost m key

/-- `EditDistForVecString::cachedPrefSubstCost`, `EditDistForVecString.cc:482-496`. -/
def cachedPrefSubstCost (k : Costs) (a b : Str) (m : SubstCostMap) : Option (SubstCostMap × Score) :=
  let key := (a ++ " pref".toList, b)
  match findCost m key with
  | some c => some (m, c)
  | Option.none => (wordPrefSubstCost k a b).map fun c => ((key, c) :: m, c)

/-- `EditDistForVecString::cachedSubstCost`, `EditDistForVecString.cc:499-512`. -/
def cachedSubstCost (k : Costs) (a b : Str) (m : SubstCostMap) : Option (SubstCostMap × Score) :=
  match findCost m (a, b) with
  | some c => some (m, c)
  | Option.none => (wordSubstCost k a b).map fun c => (((a, b), c) :: m, c)

/-- The choice of the substitution cost, `EditDistForVecString.cc:403-410`. -/
def pairCost (k : Costs) (ny : Nat) (lastComplete : Bool) (j : Nat) (a b : Str) (m : SubstCostMap) :
    Option (SubstCostMap × Score) :=
  if (j == ny && !lastComplete) = true then cachedPrefSubstCost k a b m else cachedSubstCost k a b m

/-- `EditDistForVecString::processMatrixCellPref`, `EditDistForVecString.cc:380-479`. -/
def cellWordPref (k : Costs) (x y : List Str) (lastComplete usePrefDel : Bool) (m : SubstCostMap)
    (dm : DistMatrix) (i j : Nat) : Option (SubstCostMap × CellRes) :=
  if i ≠ 0 ∧ j ≠ 0 then do
    let a ← x[i - 1]?
    let b ← y[j - 1]?
    let (m', sc) ← pairCost k y.length lastComplete j a b m
    let delC := if usePrefDel && j == y.length then 0 else wordDelCost k a
    let r ← interior dm i j sc
      (if a = b ∨ ((!lastComplete && StrProc.isPrefix b a) = true) then .hit else .subst)
      delC (if delC = 0 then .prefDel else .del) (wordInsCost k b)
    some (m', r)
  else (border dm i j (x[i - 1]?.map (wordDelCost k)) (y[j - 1]?.map (wordInsCost k))).map fun r => (m, r)

/-- `processMatrixCellPref` with a fresh cache, as called in `obtainOperationsPref`,
`EditDistForVecString.cc:535-536`. -/
def cellWordPrefFresh (k : Costs) (x y : List Str) (lastComplete usePrefDel : Bool) (dm : DistMatrix)
    (i j : Nat) : Option CellRes :=
  (cellWordPref k x y lastComplete usePrefDel [] dm i j).map Prod.snd

/-- The update of `opsCharLevel` in the trace-back loop, `EditDistForVecString.cc:543-556`, for the
steps `(operation, cost, i, j)` in the order in which the loop visits them. -/
def charLevelOps (k : Costs) (x y : List Str) (lastComplete : Bool) :
    List (Op × Score × Nat × Nat) → List Op → Option (List Op)
  | [], acc => some acc
  | e :: l, acc =>
    if (e.2.2.2 + 1 == y.length && !lastComplete && e.1 == .hit) = true then
      match x[e.2.2.1]?, y.getLast? with
      | some a, some b =>
        match strPrefixOps k a b with
        | some r => charLevelOps k x y lastComplete l r.2
        | Option.none => Option.none
      | _, _ => Option.none
    else charLevelOps k x y lastComplete l acc

/-- `EditDistForVecString::obtainOperationsPref`, `EditDistForVecString.cc:515-567` (the costs of the
operations are only used for printing and are left out); `ops0` is the previous value of the output
parameter `opsCharLevel`. -/
def obtainOperationsWordPref (k : Costs) (x y : List Str) (dm : DistMatrix)
    (lastComplete usePrefDel : Bool) (i j : Nat) (ops0 : List Op) : Option (List Op × List Op) := do
  let l ← traceLoop (cellWordPrefFresh k x y lastComplete usePrefDel) dm (i + j) i j
  let co ← charLevelOps k x y lastComplete l ops0
  some (((l.map Prod.fst).filter (· != .prefDel)).reverse, co)

/-- `y` with the trailing blank of its last word removed, and whether there was one,
`EditDistForVecString.cc:94-111`. -/
def splitLast (y : List Str) : Bool × List Str :=
  match y.getLast? with
  | Option.none => (true, y)
  | some lasty =>
    if StrProc.lastCharIsBlank lasty then (true, y.dropLast ++ [StrProc.removeLastBlank lasty])
    else (false, y.dropLast ++ [lasty])

/-- `EditDistForVecString::calculateEditDistPrefixOpsAux`, `EditDistForVecString.cc:87-158`: the
distance and the operations at word and character level. -/
def wordPrefixOpsAux (k : Costs) (x y : List Str) (usePrefDel : Bool) (ops0 : List Op) :
    Option (Score × List Op × List Op) := do
  let lastComplete := (splitLast y).1
  let xVec := addBlankCharacters x
  let yVec := addBlankCharacters (splitLast y).2
  let dm ← fillMatrix (cellWordPref k xVec yVec lastComplete usePrefDel) [] xVec.length yVec.length
  let ops ← obtainOperationsWordPref k xVec yVec dm lastComplete usePrefDel x.length y.length ops0
  let d ← rd dm x.length y.length
  some (d, ops.1, ops.2)

/-- `EditDistForVecString::calculateEditDistPrefixOps`, `EditDistForVecString.cc:67-74`. -/
def wordPrefixOps (k : Costs) (x y : List Str) : Option (Score × List Op × List Op) :=
  wordPrefixOpsAux k x y true []

/-- `EditDistForVecString::calculateEditDistPrefixOpsNoPrefDel`, `EditDistForVecString.cc:77-84`. -/
def wordPrefixOpsNoPrefDel (k : Costs) (x y : List Str) : Option (Score × List Op × List Op) :=
  wordPrefixOpsAux k x y false []

/-- `EditDistForVecString::calculateEditDistPrefix`, `EditDistForVecString.cc:56-64`. -/
def wordPrefix (k : Costs) (x y : List Str) : Option Score := (wordPrefixOps k x y).map Prod.fst

/-! ## `_editDistBasedEcm` -/

/-- The loop of `correctWordGivenPrefOps`, `_editDistBasedEcm.cc:164-190`, on the rests of the word
and of the prefix that start at `i` and `j`. -/
def correctWordLoop : List Op → Str → Str → Option Str
  | [], w, _ => some w
  | .hit :: o, c :: w, p => (correctWordLoop o w p.tail).map (c :: ·)
  | .ins :: o, w, c :: p => (correctWordLoop o w p).map (c :: ·)
  | .del :: o, w, p => correctWordLoop o w.tail p
  | .subst :: o, w, c :: p => (correctWordLoop o w.tail p).map (c :: ·)
  | .none :: o, w, p => correctWordLoop o w p
  | .prefDel :: o, w, p => correctWordLoop o w p
  | _, _, _ => Option.none

/-- `_editDistBasedEcm::correctWordGivenPrefOps`, `_editDistBasedEcm.cc:153-191`. -/
def correctWordGivenPrefOps (ops : List Op) (word pref : Str) : Option Str := correctWordLoop ops word pref

/-- `s[s.size()-1]==' '`; undefined for the empty string. -/
def endsBlank (s : Str) : Option Bool :=
  match s.getLast? with
  | Option.none => Option.none
  | some c => some (c == ' ')

/-- The loop that removes the trailing blanks, `_editDistBasedEcm.cc:60-65`. -/
def stripBlanks (s : Str) : Str := (s.reverse.dropWhile (· == ' ')).reverse

/-- What is pushed for an insertion, `_editDistBasedEcm.cc:75-85`. -/
def corrIns (lasty pj : Str) : Option Str :=
  (endsBlank pj).map fun b => if b then lasty else pj

/-- What is pushed for a hit, `_editDistBasedEcm.cc:89-115`; `isLast` is `j==prefStrVec.size()-1`. -/
def corrHit (charOps : List Op) (lasty : Str) (isLast : Bool) (xi : Option Str) (pj : Str) : Option Str :=
  if isLast then
    match endsBlank pj with
    | Option.none => Option.none
    | some true => some lasty
    | some false =>
      match xi with
      | Option.none => Option.none
      | some w => correctWordGivenPrefOps charOps w pj
  else some pj

/-- What is pushed for a substitution, `_editDistBasedEcm.cc:119-139`. -/
def corrSubst (lasty : Str) (isLast : Bool) (pj : Str) : Option Str :=
  if isLast then (endsBlank pj).map fun b => if b then lasty else pj
  else some pj

/-- The loop of `correctStrGivenPrefOps`, `_editDistBasedEcm.cc:69-149`, on the rests of the sentence
and of the prefix that start at `i` and `j`. -/
def correctStrLoop (charOps : List Op) (lasty : Str) : List Op → List Str → List Str → Option (List Str)
  | [], x, _ => some x
  | .ins :: o, x, p :: ps => do
    let w ← corrIns lasty p
    let r ← correctStrLoop charOps lasty o x ps
    some (w :: r)
  | .del :: o, x, ps => correctStrLoop charOps lasty o x.tail ps
  | .hit :: o, x, p :: ps => do
    let w ← corrHit charOps lasty ps.isEmpty x.head? p
    let r ← correctStrLoop charOps lasty o x.tail ps
    some (w :: r)
  | .subst :: o, x, p :: ps => do
    let w ← corrSubst lasty ps.isEmpty p
    let r ← correctStrLoop charOps lasty o x.tail ps
    some (w :: r)
  | .none :: o, x, ps => correctStrLoop charOps lasty o x ps
  | .prefDel :: o, x, ps => correctStrLoop charOps lasty o x ps
  | _, _, _ => Option.none

/-- `lasty`, `_editDistBasedEcm.cc:53-67`; undefined if the last word of the prefix is empty. -/
def lastyOf (pref : List Str) : Option Str :=
  match pref.getLast? with
  | Option.none => some []
  | some l =>
    match endsBlank l with
    | Option.none => Option.none
    | some true => some (stripBlanks l)
    | some false => some l

/-- `_editDistBasedEcm::correctStrGivenPrefOps`, `_editDistBasedEcm.cc:34-150`. -/
def correctStrGivenPrefOps (wordOps charOps : List Op) (x pref : List Str) : Option (List Str) := do
  let lasty ← lastyOf pref
  correctStrLoop charOps lasty wordOps x pref

/-- `PfsmEcm::correctStrGivenPref`, `PfsmEcm.cc:54-63`. -/
def correctStrGivenPref (k : Costs) (x pref : List Str) : Option (List Str) := do
  let r ← wordPrefixOps k x pref
  correctStrGivenPrefOps r.2.1 r.2.2 x pref

/-- `PfsmEcmForWg::correctStrGivenPrefWg`, `PfsmEcmForWg.cc:33-41`. -/
def correctStrGivenPrefWg (k : Costs) (x pref : List Str) : Option (List Str) := do
  let r ← wordPrefixOpsNoPrefDel k x pref
  correctStrGivenPrefOps r.2.1 r.2.2 x pref

end Thot.EditDist
