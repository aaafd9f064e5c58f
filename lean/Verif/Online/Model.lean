/-!
Model of the on-line training of the translation model: the schedule of incremental training
(`StdFeatureHandler::trainAligModel`, `addNewTransOpts`; the same code in `PhrLocalSwLiTm::incrTrainFeatsSentPair`),
mini-batches (`PhrLocalSwLiTm::minibatchTrainFeatsSentPair`) and complete retraining (`batchRetrainFeatsSentPair`).

The alignment models are an abstract state `A`: adding a sentence pair, training with a sample and extracting the phrase
pairs of a sample from the best alignments are arbitrary functions. The numbers of samples are below 2^31, so that the
`unsigned int`/`int` arithmetic is that of the integers.
-/
namespace Thot.Online

/-- The models: alignment models of type `A`, sentence pairs `S`, phrase pairs `P`. -/
structure Ops (A S P : Type) where
  /-- `addSentPair` (both directions): StdFeatureHandler.cc:321-322. -/
  add : A → S → A
  /-- `trainSentPairRange(n,n)` (both directions): StdFeatureHandler.cc:338-342. -/
  train : A → Nat → A
  /-- `nthSentPair`, `extractConsistentPhrasePairs` and `filterPhrasePairs`: StdFeatureHandler.cc:430-443. -/
  extract : A → Nat → List P

/-- `vec` is `vecVecInvPhPair`, `tab` the joint counts of the phrase model, `next` the number of the next sample.
`log` (not in the program) records the samples used, with the phrase pairs extracted from each of them. -/
structure St (A P : Type) where
  am : A
  vec : List (List P)
  tab : P → Int
  next : Nat
  log : List (Nat × List P)

/-- StdFeatureHandler.cc:326-330: the samples of one call: `oldest_sample + i*(R/E)` for `i` in `1..E`, those that are not
negative. -/
def samples (E R t : Nat) : List Nat :=
  (List.range E).filterMap (fun k =>
    if (t : Int) - R + ((k + 1 : Nat) : Int) * ((R / E : Nat) : Int) ≥ 0 then
      some ((t : Int) - R + ((k + 1 : Nat) : Int) * ((R / E : Nat) : Int)).toNat else none)

/-- StdFeatureHandler.cc:446-449: `vecVecInvPhPair` grows up to `n`. -/
def grow {P : Type} (vec : List (List P)) (n : Nat) : List (List P) := vec ++ List.replicate (n + 1 - vec.length) []

/-- `strIncrCountsOfEntry` for every pair of a list. StdFeatureHandler.cc:451-464. -/
def incrAll {P : Type} [DecidableEq P] (tab : P → Int) (l : List P) (c : Int) : P → Int :=
  l.foldl (fun tab p => fun q => if q = p then tab q + c else tab q) tab

/-- StdFeatureHandler.cc:422-478 `addNewTransOpts`. -/
def addNewTransOpts {A S P : Type} [DecidableEq P] (o : Ops A S P) (st : St A P) (n : Nat) : St A P :=
  let pairs := o.extract st.am n
  let vec := grow st.vec n
  { st with
    tab := incrAll (incrAll st.tab (vec[n]?.getD []) (-1)) pairs 1
    vec := vec.set n pairs
    log := st.log ++ [(n, pairs)] }

/-- StdFeatureHandler.cc:331-348: what is done with one sample. -/
def sampleStep {A S P : Type} [DecidableEq P] (o : Ops A S P) (st : St A P) (n : Nat) : St A P :=
  addNewTransOpts o { st with am := o.train st.am n } n

/-- StdFeatureHandler.cc:350-358: statistics that are discarded after the call for sample `t`. -/
def discard {P : Type} (E R t : Nat) (vec : List (List P)) : List (List P) :=
  if (t : Int) - ((E - 1 : Nat) : Int) * ((R / E : Nat) : Int) > 0 ∧ (t : Int) - ((E - 1 : Nat) : Int) * ((R / E : Nat) : Int) < vec.length then
    vec.set ((t : Int) - ((E - 1 : Nat) : Int) * ((R / E : Nat) : Int)).toNat []
  else vec

/-- StdFeatureHandler.cc:307-361 `trainAligModel`; `none`: division by zero. -/
def trainAligModel {A S P : Type} [DecidableEq P] (o : Ops A S P) (E R : Nat) (st : St A P) (s : S) : Option (St A P) :=
  if E = 0 then none
  else
    let st1 := (samples E R st.next).foldl (sampleStep o) { st with am := o.add st.am s }
    some { st1 with vec := discard E R st.next st1.vec, next := st.next + 1 }

/-- A sequence of calls. -/
def trainAll {A S P : Type} [DecidableEq P] (o : Ops A S P) (E R : Nat) : St A P → List S → Option (St A P)
  | st, [] => some st
  | st, s :: ss => match trainAligModel o E R st s with
    | none => none
    | some st' => trainAll o E R st' ss

/-! ### Mini-batches and retraining -/

/-- What the learning rate of a mini-batch is calculated from (PhrLocalSwLiTm.cc:937-1012): the number of the step, and
the reference and the system sentences held when it is calculated. -/
structure Lr (S Y : Type) where
  step : Nat
  refs : List S
  syss : List Y
  deriving DecidableEq

/-- What is done to the models. The learning rate of the complete retraining is 1 (`none`). -/
inductive Op (S Y : Type) where
  /-- `clear` of the models. -/
  | clear
  /-- `addSentPair` to the alignment models. -/
  | add (s : S)
  /-- one training pass of the alignment models over the samples `a..b`, with a learning rate -/
  | train (a b : Nat) (lr : Option (Lr S Y))
  /-- phrase model trained with the best alignments of the sentences -/
  | phrases (ss : List S) (lr : Option (Lr S Y))
  /-- language model trained with the sentences -/
  | lang (ss : List S) (lr : Option (Lr S Y))
  deriving DecidableEq

/-- `buf` is `vecSrcSent`/`vecTrgSent`, `sys` is `vecSysSent`, `step` is `stepNum`; `size` is the number of samples of the
alignment models and `ops` what has been done. -/
structure MSt (S Y : Type) where
  buf : List S
  sys : List Y
  step : Nat
  size : Nat
  ops : List (Op S Y)

/-- PhrLocalSwLiTm.cc:731-816: what is done with the stored sentences `b` when the alignment models have `size` samples.
The passes of the direct and of the inverse model are one operation. `sentRange.second-minibatchSize+1` wraps around for the
first block; its value is `size + |b| - m` (`m ≤ |b|`). -/
def batchOps {S Y : Type} (m emIters size : Nat) (b : List S) (lr : Lr S Y) : List (Op S Y) :=
  b.map Op.add ++ List.replicate emIters (Op.train (size + b.length - m) (size + b.length - 1) (some lr)) ++
    [Op.phrases b (some lr), Op.lang b (some lr)]

/-- PhrLocalSwLiTm.cc:700-818 `minibatchTrainFeatsSentPair`; `m` is `(unsigned int)learnStepSize`; `none`: division by
zero. -/
def minibatch {S Y : Type} (m emIters : Nat) (st : MSt S Y) (s : S × Y) : Option (MSt S Y) :=
  if m = 0 then none
  else if (st.buf ++ [s.1]).length % m = 0 then
    some ⟨[], [], st.step + 1, st.size + (st.buf ++ [s.1]).length,
      st.ops ++ batchOps m emIters st.size (st.buf ++ [s.1]) ⟨st.step, st.buf ++ [s.1], st.sys ++ [s.2]⟩⟩
  else some { st with buf := st.buf ++ [s.1], sys := st.sys ++ [s.2] }

/-- PhrLocalSwLiTm.cc:848-932: what is done in a complete retraining with the stored sentences. -/
def retrainOps {S Y : Type} (emIters : Nat) (b : List S) : List (Op S Y) :=
  Op.clear :: b.map Op.add ++ List.replicate emIters (Op.train 0 (b.length - 1) none) ++ [Op.phrases b none, Op.lang b none]

/-- PhrLocalSwLiTm.cc:821-934 `batchRetrainFeatsSentPair` (the models are cleared, not the stored sentences). -/
def retrain {S Y : Type} (m emIters : Nat) (st : MSt S Y) (s : S × Y) : Option (MSt S Y) :=
  if m = 0 then none
  else if (st.buf ++ [s.1]).length % m = 0 then
    some { st with buf := st.buf ++ [s.1], size := (st.buf ++ [s.1]).length, ops := st.ops ++ retrainOps emIters (st.buf ++ [s.1]) }
  else some { st with buf := st.buf ++ [s.1] }

/-- PhrLocalSwLiTm.cc:82-89 `clear`: `vecSysSent` is left as it is. -/
def clearAll {S Y : Type} (st : MSt S Y) : MSt S Y := ⟨[], st.sys, 0, 0, st.ops ++ [Op.clear]⟩

def runM {S Y : Type} (f : MSt S Y → S × Y → Option (MSt S Y)) : MSt S Y → List (S × Y) → Option (MSt S Y)
  | st, [] => some st
  | st, s :: ss => match f st s with
    | none => none
    | some st' => runM f st' ss

end Thot.Online
