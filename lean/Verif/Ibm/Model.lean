import Verif.Hmm.Suff
import Verif.WordAlig.Model
/-!
Model of `sw_models/IncrIbm1AligModel.cc` and `sw_models/IncrIbm2AligModel.cc`: scores of sentence pairs and
alignments, best alignments, partial probabilities, and training.

Simplifications: scores are in the probability domain (the exponential of what the code returns), with rational numbers;
the exponential of `SMALL_LG_NUM` (exp(-99999)) is 0, as it is for `double`; the probability of the target length given
the source one (`sentLenLgProb`) is a parameter. Sentences are vectors of word indices.
-/
namespace Thot.Ibm

open Thot Thot.Sum Thot.Hmm

/-- Which of the two classes. -/
inductive Kind where
  | ibm1
  | ibm2
  deriving DecidableEq

/-- `aSource` (aSource.h): target position, source and target lengths. -/
abbrev ASrc := Nat × Nat × Nat

/-- `incrLexTable` and `incrIbm2AligTable`: numerators and denominators. -/
structure Pars where
  lex : Tables Nat Nat
  al : Tables ASrc Nat

/-- `unsmoothed_pts`, `unsmoothed_aProb` (IncrIbm1AligModel.cc:398-443, IncrIbm2AligModel.cc:221-261). -/
def par {G X : Type} [DecidableEq G] [DecidableEq X] (t : Tables G X) (g : G) (x : X) : Rat :=
  match AMap.lk t.num (g, x), AMap.lk t.den g with
  | some n, some d => n / d
  | _, _ => 0

/-- The factor of the alignment of position `j` (from 1): none in the first model, `aProb` in the second. -/
def aFactor (k : Kind) (p : Pars) (j slen tlen i : Nat) : Rat :=
  match k with
  | .ibm1 => 1
  | .ibm2 => par p.al (j, slen, tlen) i

/-- `addNullWordToWidxVec` (BaseSwAligModel.h:535-545). -/
def addNull (src : List Nat) : List Nat := 0 :: src

/-- The contribution of source position `i` (0 is the null word) and target position `j` (from 0). -/
def cellP (k : Kind) (p : Pars) (ns trg : List Nat) (i j : Nat) : Rat :=
  par p.lex (ns.getD i 0) (trg.getD j 0) * aFactor k p (j + 1) (ns.length - 1) trg.length i

/-- `aProbIbm1` (IncrIbm1AligModel.cc:446-463). -/
def aProbIbm1 (slen tlen : Nat) : Rat := (List.range tlen).foldl (fun a _ => a / ((slen : Rat) + 1)) 1

/-- `sentenceLengthIsOk` (IncrIbm1AligModel.cc:159-165). -/
def lenOk (s : List Nat) : Bool := !(s.isEmpty || decide (s.length > 1024))

/-- The factor that does not depend on the alignment (IncrIbm1AligModel.cc:656-663, IncrIbm2AligModel.cc:353). -/
def front (k : Kind) (len : Rat) (slen tlen : Nat) : Rat :=
  match k with
  | .ibm1 => aProbIbm1 slen tlen * len
  | .ibm2 => len

/-- `calcSumIBM1LgProb`, `calcSumIBM2LgProb` (IncrIbm1AligModel.cc:645-688, IncrIbm2AligModel.cc:340-383). -/
def calcSum (k : Kind) (p : Pars) (len : Rat) (ns trg : List Nat) : Rat :=
  front k len (ns.length - 1) trg.length *
    (List.range trg.length).foldl (fun a j => a * (List.range ns.length).foldl (fun s i => s + cellP k p ns trg i j) 0) 1

/-- `calcLgProb` (IncrIbm1AligModel.cc:602-615, IncrIbm2AligModel.cc:331-336): only the first model checks the lengths. -/
def calcProb (k : Kind) (p : Pars) (len : Rat) (src trg : List Nat) : Rat :=
  match k with
  | .ibm1 => if lenOk src && lenOk trg then calcSum .ibm1 p len (addNull src) trg else 0
  | .ibm2 => calcSum .ibm2 p len (addNull src) trg

/-- `incrIBM1LgProb`, `incrIBM2LgProb` (IncrIbm1AligModel.cc:573-599, IncrIbm2AligModel.cc:305-328) of an alignment
vector; the second one does not include the probability of the length. -/
def probOfAlig (k : Kind) (p : Pars) (len : Rat) (ns trg alig : List Nat) : Rat :=
  (List.range alig.length).foldl (fun a j => a * cellP k p ns trg (alig.getD j 0) j)
    (match k with
      | .ibm1 => aProbIbm1 (ns.length - 1) trg.length * len
      | .ibm2 => 1)

/-- The inner loop of `lexM1LpForBestAlig`, `lexAligM2LpForBestAlig` (IncrIbm1AligModel.cc:488-499,
IncrIbm2AligModel.cc:492-505): the maximum so far (0 stands for `-FLT_MAX`: a zero probability, minus infinity, is not
above it) and its position. -/
def bestStep (f : Nat → Rat) (s : Rat × Nat) (i : Nat) : Rat × Nat := if f i ≠ 0 ∧ s.1 ≤ f i then (f i, i) else s

/-- Initial value of `best_i` for a target position: the second model resets it (IncrIbm2AligModel.cc:490), the first one
keeps that of the previous position (IncrIbm1AligModel.cc:473-502). -/
def startOf (k : Kind) (prev : Nat) : Nat :=
  match k with
  | .ibm1 => prev
  | .ibm2 => 0

/-- The loop on target positions (IncrIbm1AligModel.cc:486-502, IncrIbm2AligModel.cc:488-510): the product, the alignment
and `best_i`, which the first model does not reset. -/
def bestLoop (k : Kind) (p : Pars) (ns trg : List Nat) (s : Rat × List Nat × Nat) (j : Nat) : Rat × List Nat × Nat :=
  let r := (List.range ns.length).foldl (bestStep fun i => cellP k p ns trg i j)
    (0, startOf k s.2.2)
  (s.1 * r.1, s.2.1 ++ [r.2], r.2)

/-- Product and alignment. -/
def bestAlig (k : Kind) (p : Pars) (ns trg : List Nat) : Rat × List Nat × Nat :=
  (List.range trg.length).foldl (bestLoop k p ns trg) (1, [], 0)

/-- `obtainBestAlignment` (IncrIbm1AligModel.cc:511-539, IncrIbm2AligModel.cc:264-281): score and matrix; `none` is a
write out of the bounds of the matrix. -/
def obtainBest (k : Kind) (p : Pars) (len : Rat) (src trg : List Nat) : Option (Rat × WordAlig.Mat) :=
  if k = .ibm1 ∧ (lenOk src && lenOk trg) = false then some (0, WordAlig.init src.length trg.length)
  else
    (WordAlig.putAligVec (WordAlig.init src.length trg.length) (bestAlig k p (addNull src) trg).2.1).map fun m =>
      (front k len src.length trg.length * (bestAlig k p (addNull src) trg).1, m)

/-- `calcLgProbForAlig` of an alignment matrix (IncrIbm1AligModel.cc:542-570, IncrIbm2AligModel.cc:284-302), when
`getAligVec` succeeds and the lengths agree. -/
def calcProbForAlig (k : Kind) (p : Pars) (len : Rat) (src trg : List Nat) (m : WordAlig.Mat) : Option Rat :=
  match WordAlig.getAligVec m with
  | none => none
  | some alig => if trg.length = alig.length then some (probOfAlig k p len (addNull src) trg alig) else none

/-! ### Partial probabilities -/

/-- The factor of position `i` used in partial probabilities: 1/(slen+1) or `aProb`. -/
def ppFactor (k : Kind) (p : Pars) (j slen tlen i : Nat) : Rat :=
  match k with
  | .ibm1 => 1 / ((slen : Rat) + 1)
  | .ibm2 => par p.al (j, slen, tlen) i

/-- `initPpInfo` (IncrIbm1AligModel.cc:691-706, IncrIbm2AligModel.cc:386-402). -/
def initPp (k : Kind) (p : Pars) (slen : Nat) (trg : List Nat) : List Rat :=
  (List.range trg.length).map fun j => 0 + par p.lex 0 (trg.getD j 0) * ppFactor k p (j + 1) slen trg.length 0

/-- `partialProbWithoutLen` (IncrIbm1AligModel.cc:709-722, IncrIbm2AligModel.cc:405-422). -/
def partialPp (k : Kind) (p : Pars) (srcPartialLen slen : Nat) (s trg : List Nat) (pp : List Rat) : List Rat :=
  (List.range s.length).foldl (fun pp i => (List.range trg.length).map fun j =>
    pp.getD j 0 + par p.lex (s.getD i 0) (trg.getD j 0) * ppFactor k p (j + 1) slen trg.length (srcPartialLen + i + 1)) pp

/-- `lpFromPpInfo` (IncrIbm1AligModel.cc:725-734). -/
def fromPp (pp : List Rat) : Rat := pp.foldl (fun a x => a * x) 1

/-- `lgProbOfBestTransForTrgWord` without the cache (IncrIbm1AligModel.cc:776-806), `getEntriesForTarget`
(IncrIbm1AligModel.cc:508-524), `getTransForTarget` (IncrLexTable.cc:111-128). -/
def bestTrans (p : Pars) (t : Nat) : Rat :=
  ((p.lex.num.filter fun e => e.1.2 = t).map fun e => par p.lex e.1.1 t).foldl (fun b x => if b < x then x else b) 0

/-- `addHeurForNotAddedWords` (IncrIbm1AligModel.cc:737-745). -/
def addHeur (p : Pars) (num : Nat) (trg : List Nat) (pp : List Rat) : List Rat :=
  (List.range trg.length).map fun j => pp.getD j 0 + num * bestTrans p (trg.getD j 0)

/-- `sustHeurForNotAddedWords` (IncrIbm1AligModel.cc:748-756). -/
def sustHeur (p : Pars) (num : Nat) (trg : List Nat) (pp : List Rat) : List Rat :=
  (List.range trg.length).map fun j => pp.getD j 0 - num * bestTrans p (trg.getD j 0)

/-! ### Training -/

/-- `SMOOTHING_ANJI_NUM`, `SMOOTHING_WEIGHTED_ANJI` (IncrIbm1AligModel.h:46-47). -/
def smooth : Rat := 1 / 1000000

/-- `calc_anji_num` for a table: `ARBITRARY_PTS` = 0.1 for parameters never seen (IncrIbm1AligModel.cc:265-287),
and `calc_anji_num_alig` with `ARBITRARY_AP` = 0.1 (IncrIbm2AligModel.cc:62-92). -/
def seenOr {G X : Type} [DecidableEq G] [DecidableEq X] (t : Tables G X) (g : G) (x : X) : Rat :=
  if (AMap.lk t.num (g, x)).isSome then par t g x else 1 / 10

/-- `calc_anji_num` (IncrIbm1AligModel.cc:265-287, IncrIbm2AligModel.cc:47-58), `j` from 1. -/
def anjiNum (k : Kind) (p : Pars) (ns trg : List Nat) (i j : Nat) : Rat :=
  seenOr p.lex (ns.getD i 0) (trg.getD (j - 1) 0) *
    (match k with
      | .ibm1 => 1
      | .ibm2 => seenOr p.al (j, ns.length - 1, trg.length) i)

/-- The numerator with its floor (IncrIbm1AligModel.cc:224-228). -/
def anjiFloor (k : Kind) (p : Pars) (ns trg : List Nat) (i j : Nat) : Rat :=
  if anjiNum k p ns trg i j < smooth then smooth else anjiNum k p ns trg i j

/-- `numVec[i]/sum_anji_num_forall_s` (IncrIbm1AligModel.cc:216-239). -/
def anjiRaw (k : Kind) (p : Pars) (ns trg : List Nat) (c : Nat × Nat) : Rat :=
  anjiFloor k p ns trg c.2 c.1 / (List.range ns.length).foldl (fun s i => s + anjiFloor k p ns trg i c.1) 0

/-- The expected value with the floor that `fillEmAuxVars` puts to its product with the weight
(IncrIbm1AligModel.cc:299-311, IncrIbm2AligModel.cc:114-124), divided by the weight. (The code stores the value without
the floor and puts it each time the value is used.) -/
def anjiVal (k : Kind) (p : Pars) (w : Rat) (ns trg : List Nat) (c : Nat × Nat) : Rat :=
  if w * anjiRaw k p ns trg c < smooth then smooth / w else anjiRaw k p ns trg c

/-- A training pair: source and target sentences and weight. -/
structure TPair where
  src : List Nat
  trg : List Nat
  w : Rat

/-- The cells of a pair for the lexical parameters, in the order of the loops (IncrIbm1AligModel.cc:243-256). -/
def lexCells1 (ns trg : List Nat) : List ((Nat × Nat) × (Nat × Nat)) :=
  (List.range' 1 trg.length).flatMap fun j =>
    (List.range ns.length).map fun i => ((j, i), (ns.getD i 0, trg.getD (j - 1) 0))

/-- The cells of a pair for the alignment parameters (IncrIbm2AligModel.cc:104-106, 126-131); none in the first model. -/
def alCells (k : Kind) (ns trg : List Nat) : List ((Nat × Nat) × (ASrc × Nat)) :=
  match k with
  | .ibm1 => []
  | .ibm2 => (List.range' 1 trg.length).flatMap fun j =>
      (List.range ns.length).map fun i => ((j, i), ((j, ns.length - 1, trg.length), i))

/-- The pairs used for training (IncrIbm1AligModel.cc:184-192). -/
def lexCorpus (pairs : Nat → TPair) (n : Nat) : Option (Hmm.Sent (Nat × Nat) Nat Nat) :=
  if lenOk (pairs n).src && lenOk (pairs n).trg then
    some ⟨lexCells1 (addNull (pairs n).src) (pairs n).trg, (pairs n).w⟩
  else none

def alCorpus (k : Kind) (pairs : Nat → TPair) (n : Nat) : Option (Hmm.Sent (Nat × Nat) ASrc Nat) :=
  if lenOk (pairs n).src && lenOk (pairs n).trg then
    some ⟨alCells k (addNull (pairs n).src) (pairs n).trg, (pairs n).w⟩
  else none

/-- The expected values of pair `n` for the current parameters. -/
def newVals (k : Kind) (p : Pars) (pairs : Nat → TPair) (n : Nat) : Nat × Nat → Rat :=
  anjiVal k p (pairs n).w (addNull (pairs n).src) (pairs n).trg

/-- `efficientBatchTrainingForRange` (IncrIbm1AligModel.cc:72-86, IncrIbm2AligModel.cc:37-52). -/
def batch (k : Kind) (pairs : Nat → TPair) (lo hi : Nat) (p : Pars) : Pars :=
  { lex := (batchTrain (lexCorpus pairs) ⟨Mem.empty none, p.lex⟩ lo hi (newVals k p pairs)).tab
    al := (batchTrain (alCorpus k pairs) ⟨Mem.empty none, p.al⟩ lo hi (newVals k p pairs)).tab }

/-- State of incremental training. (The code has one matrix `anji`; the values it holds for both families of
parameters are the same.) -/
structure TState where
  lex : Est (Nat × Nat) Nat Nat
  al : Est (Nat × Nat) ASrc Nat

/-- The parameters of a state. -/
def TState.pars (s : TState) : Pars := ⟨s.lex.tab, s.al.tab⟩

/-- `trainSentPairRange` (IncrIbm1AligModel.cc:50-60). -/
def trainRange (k : Kind) (pairs : Nat → TPair) (s : TState) (r : Nat × Nat) : TState :=
  { lex := train (lexCorpus pairs) s.lex r.1 r.2 (newVals k s.pars pairs)
    al := train (alCorpus k pairs) s.al r.1 r.2 (newVals k s.pars pairs) }

/-- An empty model, with unrestricted memory for expected values (the default). -/
def TState.empty : TState := ⟨⟨Mem.empty none, ⟨[], []⟩⟩, ⟨Mem.empty none, ⟨[], []⟩⟩⟩

end Thot.Ibm
