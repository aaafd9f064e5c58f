import Mathlib.Algebra.Order.Field.Rat
/-!
Model of `stack_dec/KbMiraLlWu.{h,cc}`: the k-best MIRA weight updater.

Simplifications: `double` is rational (`none` is "not a number", for which every comparison is false); `-DBL_MAX` is
smaller than every score; the scorer (`BaseMiraScorer`) is an abstract structure; every vector of score components has
as many components as there are weights (assumed by the code, which does not check it: hypothesis of the theorems).
`rand()` is an arbitrary sequence of numbers. A read of the uninitialized members of `HopeFearData` is `none`.
-/
namespace Thot.KbMira

/-- A member of an n-best list with its score components. -/
structure Cand (τ : Type) where
  text : τ
  feats : List Rat

/-- `BaseMiraScorer`: `B` is the state of the background corpus; `upd b cand ref decay` is `updateBackgroundCorpus` with
the statistics that `sentBackgroundScore` returned for `cand`. -/
structure Scorer (τ B : Type) where
  reset : B
  bgScore : B → τ → τ → Option Rat
  upd : B → τ → τ → Rat → B
  sent : τ → τ → Option Rat
  corpus : List τ → List τ → Option Rat

/-- `score += wv[k]*nScores[n][k]` (KbMiraLlWu.cc:262-264, 288-290). -/
def dot : List Rat → List Rat → Rat
  | a :: as, b :: bs => a * b + dot as bs
  | _, _ => 0

/-- `x > m` where `m` is initially `-DBL_MAX` (`none`). -/
def gt (x : Rat) : Option Rat → Bool
  | none => true
  | some m => decide (m < x)

/-- `MaxTranslation` (KbMiraLlWu.cc:255-271): the best score so far and its translation. -/
def maxStep {τ : Type} (w : List Rat) (st : Option Rat × τ) (c : Cand τ) : Option Rat × τ :=
  if gt (dot w c.feats) st.1 then (some (dot w c.feats), c.text) else st

/-- `init` is the value of `maxTranslation` before the call. -/
def maxTranslation {τ : Type} (w : List Rat) (cands : List (Cand τ)) (init : τ) : τ :=
  (cands.foldl (maxStep w) (none, init)).2

/-- The local variables of `HopeFear` and the members of `HopeFearData` (KbMiraLlWu.h:51-56, KbMiraLlWu.cc:281-283). -/
structure HF (τ : Type) where
  hopeTotal : Option Rat := none
  hope : Option (Cand τ × Rat) := none
  fearTotal : Option Rat := none
  fear : Option (Cand τ × Rat) := none

/-- "Hope" (KbMiraLlWu.cc:305-314), with `hope_scale` = 1. -/
def hopeStep {τ : Type} (h : HF τ) (c : Cand τ) (score q : Rat) : HF τ :=
  if gt (1 * score + q) h.hopeTotal then { h with hopeTotal := some (1 * score + q), hope := some (c, q) } else h

/-- "Fear" (KbMiraLlWu.cc:316-324). -/
def fearStep {τ : Type} (h : HF τ) (c : Cand τ) (score q : Rat) : HF τ :=
  if gt (score - q) h.fearTotal then { h with fearTotal := some (score - q), fear := some (c, q) } else h

/-- Body of the loop (KbMiraLlWu.cc:288-324); with a quality that is not a number nothing changes. -/
def hfStep {τ : Type} (w : List Rat) (quality : Cand τ → Option Rat) (h : HF τ) (c : Cand τ) : HF τ :=
  match quality c with
  | none => h
  | some q => fearStep (hopeStep h c (dot w c.feats) q) c (dot w c.feats) q

/-- `HopeFear` (KbMiraLlWu.cc:274-326). -/
def hopeFear {τ : Type} (w : List Rat) (quality : Cand τ → Option Rat) (cands : List (Cand τ)) : HF τ :=
  cands.foldl (hfStep w quality) {}

/-- `diff` (KbMiraLlWu.cc:85-87, 188-190). -/
def diffVec (a b : List Rat) : List Rat := List.zipWith (· - ·) a b

/-- `std::min(c, loss/diffNorm)` (KbMiraLlWu.cc:99, 204): the division of a positive number by zero is infinity. -/
def eta (c loss norm : Rat) : Rat := if norm = 0 then c else min c (loss / norm)

/-- `wt[k] += eta*diff[k]` (KbMiraLlWu.cc:101, 207). -/
def stepWeights (w : List Rat) (e : Rat) (d : List Rat) : List Rat := List.zipWith (fun a b => a + e * b) w d

/-- Variables of an epoch (KbMiraLlWu.cc:77-79) and the state of the scorer. -/
structure St (B : Type) where
  wt : List Rat
  wTotals : List Rat
  nUpdates : Nat
  bg : B

/-- `loss` (KbMiraLlWu.cc:88-92, 191-195). -/
def lossOf (w : List Rat) (hopeQ fearQ : Rat) (d : List Rat) : Rat := (hopeQ - fearQ) - dot w d

/-- The update of the weights (KbMiraLlWu.cc:94-105, 199-212). -/
def updWeights {B : Type} (c : Rat) (st : St B) (loss : Rat) (d : List Rat) : St B :=
  if loss > 0 then
    { st with
      wt := stepWeights st.wt (eta c loss (dot d d)) d
      wTotals := List.zipWith (· + ·) st.wTotals (stepWeights st.wt (eta c loss (dot d d)) d)
      nUpdates := st.nUpdates + 1 }
  else st

/-- The processing of a sentence (KbMiraLlWu.cc:82-107, 182-214). -/
def processSent {τ B : Type} (sc : Scorer τ B) (c decay : Rat) (ref : τ) (cands : List (Cand τ)) (st : St B) :
    Option (St B) :=
  match (hopeFear st.wt (fun x => sc.bgScore st.bg x.text ref) cands).hope,
      (hopeFear st.wt (fun x => sc.bgScore st.bg x.text ref) cands).fear with
  | some h, some f =>
    if h.2 > f.2 then
      some { updWeights c st (lossOf st.wt h.2 f.2 (diffVec h.1.feats f.1.feats)) (diffVec h.1.feats f.1.feats) with
        bg := sc.upd st.bg h.1.text ref decay }
    else some st
  | _, _ => none

/-- `wAvg` (KbMiraLlWu.cc:109-111, 218-220). -/
def avg {B : Type} (st : St B) : List Rat := st.wTotals.map (· / (st.nUpdates : Rat))

/-- `max_quality` and `max_wAvg`. -/
structure Best where
  quality : Rat
  w : List Rat
  deriving DecidableEq

/-- `quality > iter_max_quality` and `iter_max_quality > max_quality` (KbMiraLlWu.cc:117-124, 235-242): the new values of
`iter_max_j`, `iter_max_quality` and the best. -/
def evalStep (j : Nat) (q : Option Rat) (w : List Rat) (s : Nat × Rat × Best) : Nat × Rat × Best :=
  match q with
  | none => s
  | some q => if q > s.2.1 then (j, q, if q > s.2.2.quality then ⟨q, w⟩ else s.2.2) else s

/-- The loop on `j` (KbMiraLlWu.cc:81-130, 176-249): `epoch j` is the work on the sentences, `eval` the quality of the
averaged weights, `er` is `epochsToRestart`; `fuel` iterations remain. The second component of the result (not in the
code) is the list of the averages evaluated, with their qualities. -/
def iters {B : Type} (epoch : Nat → St B → Option (St B)) (eval : List Rat → Option Rat) (er : Nat) :
    Nat → Nat → St B → Nat × Rat × Best → Option (B × Best × List (List Rat × Option Rat))
  | 0, _, st, s => some (st.bg, s.2.2, [])
  | fuel + 1, j, st, s =>
    match epoch j st with
    | none => none
    | some st' =>
      if j - (evalStep j (eval (avg st')) (avg st') s).1 > er then
        some (st'.bg, (evalStep j (eval (avg st')) (avg st') s).2.2, [(avg st', eval (avg st'))])
      else
        match iters epoch eval er fuel (j + 1) st' (evalStep j (eval (avg st')) (avg st') s) with
        | none => none
        | some r => some (r.1, r.2.1, (avg st', eval (avg st')) :: r.2.2)

/-- The loop on `nReStarts` (KbMiraLlWu.cc:75-131, 170-250), `fuel` of them remain; `k` is the number of the restart. -/
def restarts {B : Type} (epoch : Nat → Nat → St B → Option (St B)) (eval : List Rat → Option Rat) (er nIters : Nat)
    (w0 : List Rat) : Nat → Nat → B → Best → Option (Best × List (List Rat × Option Rat))
  | 0, _, _, best => some (best, [])
  | fuel + 1, k, bg, best =>
    match iters (epoch k) eval er nIters 0 ⟨w0, w0, 1, bg⟩ (0, 0, best) with
    | none => none
    | some r =>
      match restarts epoch eval er nIters w0 fuel (k + 1) r.1 r.2.1 with
      | none => none
      | some r' => some (r'.1, r.2.2 ++ r'.2)

/-- The parameters of the constructor (KbMiraLlWu.cc:32-43). -/
structure Pars where
  c : Rat := 1 / 100
  decay : Rat := 999 / 1000
  nIters : Nat := 60
  epochsToRestart : Nat := 20
  maxRestarts : Nat := 1

/-- `KbMiraLlWu::update` (KbMiraLlWu.cc:61-133); `empty` is the empty string, the value of `maxTranslation` before the
call of `MaxTranslation` (KbMiraLlWu.cc:114). -/
def update {τ B : Type} (p : Pars) (sc : Scorer τ B) (empty ref : τ) (cands : List (Cand τ)) (w0 : List Rat) :
    Option (Best × List (List Rat × Option Rat)) :=
  restarts (fun _ _ st => processSent sc p.c p.decay ref cands st)
    (fun w => sc.sent (maxTranslation w cands empty) ref) p.epochsToRestart p.nIters w0 p.maxRestarts 0 sc.reset ⟨0, []⟩

/-- A swap of two elements (KbMiraLlWu.cc:339-341); `none` if some of them is out of bounds. -/
def swap (l : List Nat) (i j : Nat) : Option (List Nat) :=
  match l[i]?, l[j]? with
  | some a, some b => some ((l.set i b).set j a)
  | _, _ => none

/-- The loop of `sampleWoReplacement` (KbMiraLlWu.cc:337-342) for `k`, ..., 1; `rnd k` is the value of `rand()`. -/
def shuffleLoop (rnd : Nat → Nat) : Nat → List Nat → Option (List Nat)
  | 0, l => some l
  | k + 1, l =>
    match swap l (k + 1) (rnd (k + 1) % (k + 1)) with
    | none => none
    | some l' => shuffleLoop rnd k l'

/-- `sampleWoReplacement` (KbMiraLlWu.cc:329-343). -/
def sampleWoReplacement (rnd : Nat → Nat) (n : Nat) : Option (List Nat) := shuffleLoop rnd (n - 1) (List.range n)

/-- A sentence of the corpus. -/
abbrev Sent (τ : Type) := τ × List (Cand τ)

/-- The loop on the sentences of an epoch (KbMiraLlWu.cc:179-215), in the order of `indices`. -/
def epochLoop {τ B : Type} (sc : Scorer τ B) (c decay : Rat) (corpus : List (Sent τ)) :
    List Nat → St B → Option (St B)
  | [], st => some st
  | i :: is, st =>
    match corpus[i]? with
    | none => none
    | some s =>
      match processSent sc c decay s.1 s.2 st with
      | none => none
      | some st' => epochLoop sc c decay corpus is st'

/-- The translations of the corpus (KbMiraLlWu.cc:228-233): `maxTranslation` keeps its value from a sentence to the
next one. -/
def corpusTranslations {τ : Type} (w : List Rat) : List (Sent τ) → τ → List τ
  | [], _ => []
  | s :: ss, prev => maxTranslation w s.2 prev :: corpusTranslations w ss (maxTranslation w s.2 prev)

/-- An epoch (KbMiraLlWu.cc:176-215). -/
def corpusEpoch {τ B : Type} (sc : Scorer τ B) (c decay : Rat) (corpus : List (Sent τ)) (rnd : Nat → Nat) (st : St B) :
    Option (St B) :=
  match sampleWoReplacement rnd corpus.length with
  | none => none
  | some idx => epochLoop sc c decay corpus idx st

/-- `KbMiraLlWu::updateClosedCorpus` (KbMiraLlWu.cc:136-252); `rnd k j` are the numbers returned by `rand()` in the
epoch `j` of the restart `k`. -/
def updateClosedCorpus {τ B : Type} (p : Pars) (sc : Scorer τ B) (empty : τ) (rnd : Nat → Nat → Nat → Nat)
    (corpus : List (Sent τ)) (w0 : List Rat) : Option (Best × List (List Rat × Option Rat)) :=
  restarts (fun k j st => corpusEpoch sc p.c p.decay corpus (rnd k j) st)
    (fun w => sc.corpus (corpusTranslations w corpus empty) (corpus.map Prod.fst)) p.epochsToRestart p.nIters w0
    p.maxRestarts 0 sc.reset ⟨0, []⟩

/-- `newWeightsVec` (KbMiraLlWu.cc:132, 251). -/
def newWeights (r : Best × List (List Rat × Option Rat)) : List Rat := r.1.w

end Thot.KbMira
