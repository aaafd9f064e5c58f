import Verif.WordAlig.Model

/-! Model of the extraction of consistent phrase pairs, `src/phrase_models/PhraseExtractionTable.cc`
(`extractConsistentPhrasesOld`, which is the one compiled: `USE_OCH_PHRASE_EXTRACT` is not defined).

`Bitset<MAX_SENTENCE_LENGTH>` has 101 bits stored in four words: a `BitVec 128` (the class is the object of
`Verif.Bitset`).  Lengths and positions are natural numbers (the code uses `unsigned int`; no subtraction goes
below zero in the calls below, because a source sentence has the null word).  The weight of a phrase pair is
kept as a fraction. -/

namespace Thot.PhrExtract

open Thot.WordAlig (Mat)

/-- `MAX_SENTENCE_LENGTH`, `PhraseDefs.h:46`. -/
def maxSentLen : Nat := 101

abbrev Cov := BitVec 128

/-- `Bitset::test` -/
def test (c : Cov) (i : Nat) : Bool := c.getLsbD i

/-- `Bitset::set(i)` -/
def cset (c : Cov) (i : Nat) : Cov := c ||| BitVec.twoPow 128 i

/-- `Bitset::reset(i)` -/
def creset (c : Cov) (i : Nat) : Cov := c &&& ~~~ BitVec.twoPow 128 i

/-- `CellAlignment`, `CellAlignment.h`. -/
structure CellAlig where
  valid : Bool
  cov : Cov
  deriving DecidableEq, Repr

/-- `PhrasePair`; the weight is `num/den`. -/
structure Phrase where
  s : List String
  t : List String
  num : Nat
  den : Nat
  deriving DecidableEq, Repr

/-- `PhraseExtractParameters` and the members set from it, `PhraseExtractionTable.cc:78-82`. -/
structure Pars where
  maxTrg : Nat
  constraintSrcLen : Bool
  countSpurious : Bool
  monotone : Bool
  deriving Repr

/-- `maxSrcPhraseLength`, `PhraseExtractionTable.cc:79-80`. -/
def Pars.maxSrc (p : Pars) : Nat := if p.constraintSrcLen then p.maxTrg else maxSentLen

/-- The inputs: `nslen` (the length of the source sentence with the null word), `tlen`, the alignment matrix. -/
structure Ctx where
  nslen : Nat
  tlen : Nat
  alig : Mat
  pars : Pars

/-- `zeroFertBitset`, `PhraseExtractionTable.cc:1022-1036`. -/
def zeroFert (A : Mat) : Cov :=
  let sol := (List.range A.I).foldl (fun c i => (List.range A.J).foldl (fun c j => if A.m i j ≠ 0 then creset c (i + 1) else c) c)
    (BitVec.allOnes 128)
  creset sol 0

/-- `spuriousWordsBitset`, `PhraseExtractionTable.cc:1038-1051`. -/
def spurious (A : Mat) : Cov :=
  (List.range A.I).foldl (fun c i => (List.range A.J).foldl (fun c j => if A.m i j ≠ 0 then creset c j else c) c) (BitVec.allOnes 128)

/-- `leftMostPosInCell`, `PhraseExtractionTable.cc:1080-1084`. -/
def leftPos (e : Ctx) (x : Nat) : Nat := e.tlen - x - 1

/-- `sourcePosInCell`, `PhraseExtractionTable.cc:1071-1077`. -/
def inCell (e : Ctx) (j x y : Nat) : Bool := j ≤ y && leftPos e x ≤ j

/-- `trgPhraseLengthInCell`, `PhraseExtractionTable.cc:1093-1097`. -/
def trgLen (e : Ctx) (x y : Nat) : Nat := y - leftPos e x + 1

/-- `trgPhraseLengthInCellNonSpurious`, `PhraseExtractionTable.cc:1100-1111`. -/
def trgLenNonSpur (e : Ctx) (x y : Nat) : Nat :=
  (List.range' (leftPos e x) (y + 1 - leftPos e x)).countP fun j => !test (spurious e.alig) j

/-- The loop that looks for gaps, `PhraseExtractionTable.cc:980-987`: from position `k`, `m` positions left, `n` is
`numAlig` and `l` is `leftMost_i`; `none` if there is a gap. -/
def contLoop (c : Cov) : Nat → Nat → Nat → Nat → Option (Nat × Nat)
  | _, 0, n, l => some (n, l)
  | k, m + 1, n, l =>
    if decide (n > 0) && test c k && !test c (k - 1) then none
    else contLoop c (k + 1) m (if test c k then n + 1 else n) (if test c k && decide (l > k) then k else l)

/-- The last loop of `validCoverageForCell`, `PhraseExtractionTable.cc:992-1016`. -/
def outOk (e : Ctx) (c : Cov) (x y l : Nat) : Bool :=
  (List.range e.tlen).all fun j => inCell e j x y || (List.range (e.nslen - 1)).all fun i =>
    e.alig.m i j == 0 || (!test c (i + 1) &&
      (!e.pars.monotone || (if i + 1 < l then !decide (j > y) else !decide (j < leftPos e x))))

/-- `validCoverageForCell`, `PhraseExtractionTable.cc:955-1019`. -/
def validCov (e : Ctx) (c : Cov) (x y : Nat) : Bool :=
  if x = e.tlen - 1 ∧ y = e.tlen - 1 then
    (List.range' 1 (e.nslen - 1)).all (test c) && decide (e.nslen - 1 ≤ e.pars.maxSrc) && outOk e c x y e.nslen
  else
    match contLoop c 1 (e.nslen - 1) 0 e.nslen with
    | none => false
    | some (n, l) => !(n == 0 || decide (n > e.pars.maxSrc)) && outOk e c x y l

/-- The links of the target word `y`: coverage, leftmost and rightmost positions; `PhraseExtractionTable.cc:804-812`. -/
def linkLoop (e : Ctx) (y : Nat) : Cov × Nat × Nat :=
  (List.range (e.nslen - 1)).foldl (fun r i =>
    if e.alig.m i y ≠ 0 then
      (cset r.1 (i + 1), if r.2.1 > i + 1 then i + 1 else r.2.1, if r.2.2 < i + 1 then i + 1 else r.2.2)
    else r) (0, e.nslen, 0)

/-- Unaligned words between the leftmost and the rightmost position, `PhraseExtractionTable.cc:814-815`. -/
def fillLoop (e : Ctx) (c : Cov) (l r : Nat) : Cov :=
  (List.range' 1 (e.nslen - 1)).foldl (fun c i => if test (zeroFert e.alig) i && (decide (i > l) && decide (i < r)) then cset c i else c) c

/-- Unaligned words on the left, `PhraseExtractionTable.cc:829-833`. -/
def leftLoop (z : Cov) (c : Cov) : Nat → Cov × Nat
  | 0 => (c, 0)
  | i + 1 => if test z (i + 1) then leftLoop z (cset c (i + 1)) i else (c, i + 1)

/-- Unaligned words on the right, `PhraseExtractionTable.cc:849-853`; `m` is `nslen-i`. -/
def rightLoop (z : Cov) (c : Cov) (i : Nat) : Nat → Cov × Nat
  | 0 => (c, i)
  | m + 1 => if test z i then rightLoop z (cset c i) (i + 1) m else (c, i)

/-- A cell for one target word, `PhraseExtractionTable.cc:801-863`. -/
def externCell (e : Ctx) (x y : Nat) : List CellAlig :=
  let z := zeroFert e.alig
  let r := linkLoop e y
  let base := fillLoop e r.1 r.2.1 r.2.2
  let l1 : List CellAlig := [⟨validCov e base x y && decide (trgLenNonSpur e x y > 0), base⟩]
  let l2 : List CellAlig :=
    if r.2.1 > 0 ∧ r.2.1 ≠ e.nslen then
      let q := leftLoop z base (r.2.1 - 1)
      if test z (q.2 + 1) then [⟨validCov e q.1 x y, q.1⟩] else []
    else []
  let l3 : List CellAlig :=
    if r.2.2 < e.nslen - 1 ∧ r.2.2 ≠ 0 then
      let q := rightLoop z base (r.2.2 + 1) (e.nslen - (r.2.2 + 1))
      if test z (q.2 - 1) then [⟨validCov e q.1 x y, q.1⟩] else []
    else []
  l1 ++ l2 ++ l3

/-- `pecMatrix`: the cells. -/
abbrev Table := Nat → Nat → List CellAlig

/-- `PhraseExtractionTable.cc:880-888` with `existCellAlig`, `1054-1068`. -/
def addCov (e : Ctx) (x y : Nat) (l : List CellAlig) (c : Cov) : List CellAlig :=
  if l.any fun a => a.cov == c then l else l ++ [⟨validCov e c x y, c⟩]

/-- An inner cell, `PhraseExtractionTable.cc:866-890`. -/
def innerCell (e : Ctx) (tab : Table) (x y : Nat) : List CellAlig :=
  (List.range' (leftPos e x) (y - leftPos e x)).foldl (fun l z =>
    (tab x z).foldl (fun l a => (tab (e.tlen - 2 - z) y).foldl (fun l b => addCov e x y l (a.cov ||| b.cov)) l) l) []

/-- The length of the target phrase of a cell, `PhraseExtractionTable.cc:796-797`. -/
def cellLen (e : Ctx) (x y : Nat) : Nat := if e.pars.countSpurious then trgLen e x y else trgLenNonSpur e x y

/-- One cell, `PhraseExtractionTable.cc:794-891`. -/
def cell (e : Ctx) (tab : Table) (x y : Nat) : List CellAlig :=
  if cellLen e x y ≤ e.pars.maxTrg then
    if x = e.tlen - y - 1 then externCell e x y else innerCell e tab x y
  else []

def putCell (tab : Table) (x y : Nat) (l : List CellAlig) : Table :=
  fun a b => if a = x ∧ b = y then l else tab a b

/-- `obtainConsistentPhrases`, `PhraseExtractionTable.cc:779-895`: `clear()` and the double loop. -/
def fillTable (e : Ctx) : Table :=
  (List.range e.tlen).foldl (fun tab y =>
    (List.range' (e.tlen - y - 1) (y + 1)).foldl (fun tab x => putCell tab x y (cell e tab x y)) tab) (fun _ _ => [])

/-- The phrase pair of a coverage, `PhraseExtractionTable.cc:930-950`.  `none`: access outside of a vector. -/
def mkPhrase (e : Ctx) (ns t : List String) (x y : Nat) (c : Cov) : Option Phrase :=
  let zs := List.range' (leftPos e x) (y + 1 - leftPos e x)
  let is := (List.range' 1 e.nslen).filter (test c)
  match zs.mapM (fun z => t[z]?), is.mapM (fun i => ns[i]?) with
  | some t_, some s_ =>
    some ⟨s_, t_, (is.map fun i => (zs.map fun z => e.alig.m (i - 1) z).sum).sum,
      (is.map fun i => zs.countP fun z => decide (e.alig.m (i - 1) z > 0)).sum⟩
  | _, _ => none

/-- The cells in the order of the loops. -/
def cellOrder (tlen : Nat) : List (Nat × Nat) :=
  (List.range tlen).flatMap fun y => (List.range' (tlen - y - 1) (y + 1)).map fun x => (x, y)

/-- `createVectorWithConsPhrases`, `PhraseExtractionTable.cc:915-952`. -/
def createVector (e : Ctx) (ns t : List String) (tab : Table) : Option (List Phrase) :=
  ((cellOrder e.tlen).flatMap fun p => ((tab p.1 p.2).filter (·.valid)).map fun a => (p, a.cov)).mapM fun q =>
    mkPhrase e ns t q.1.1 q.1.2 q.2

/-- `extractConsistentPhrases`, `PhraseExtractionTable.cc:46-87`; `ns` is the source sentence with the null word.  When the
sentences are too long nothing is extracted (for an empty `ns` the unsigned `ns.size()-1` is too large). -/
def extract (p : Pars) (ns t : List String) (A : Mat) : Option (List Phrase) :=
  if t.length ≥ maxSentLen ∨ ns = [] ∨ ns.length - 1 ≥ maxSentLen then some []
  else
    let e : Ctx := ⟨ns.length, t.length, A, p⟩
    createVector e ns t (fillTable e)

end Thot.PhrExtract
