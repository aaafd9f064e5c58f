import Verif.Hmm.PropsFwd
import Verif.Common.AMap
/-!
Model of the incremental estimation of the parameters of the HMM alignment model: the memory of expected values
(`sw_models/anjiMatrix.cc`, `sw_models/anjm1ip_anjiMatrix.cc`), the accumulation of sufficient statistics and the update
of numerators and denominators (`sw_models/_incrHmmAligModel.cc`), in the probability domain.

Lexical and alignment parameters follow the same code; the model is generic in the type `γ` of the cells of the memory of
one sentence pair (`(j,i)`, or `(j,i,ip)`), the conditioning part `G` of a parameter (a source word, or a previous
position with the source length) and the conditioned part `X` (a target word, or a position).
-/
namespace Thot.Hmm

open Thot Thot.Sum

/-! ### Memory of expected values -/

/-- `anjiMatrix`: maximum number of sentence pairs (`none` is `UNRESTRICTED_ANJI_SIZE`), next entry to be recycled, the
entries (`none` is `INVALID_ANJI_VAL`), and the mapping between entries and sentence pairs.  The entry of a sentence
pair is allocated with the size of the sentences, so `resizeIsRequired` (anjiMatrix.cc:82-96) only holds for an entry
that is new or was cleared, which in both cases is filled with invalid values. -/
structure Mem (γ : Type) where
  maxn : Option Nat
  ptr : Nat
  ent : Nat → γ → Option Rat
  np2n : Nat → Option Nat
  n2np : Nat → Option Nat

/-- The constructor (anjiMatrix.cc:46-50) and `set_maxnsize` (anjiMatrix.cc:118-122). -/
def Mem.empty {γ : Type} (maxn : Option Nat) : Mem γ :=
  { maxn := maxn, ptr := 0, ent := fun _ _ => none, np2n := fun _ => none, n2np := fun _ => none }

/-- Update of a function at a point. -/
def upd {β : Type} (f : Nat → β) (n : Nat) (v : β) : Nat → β := fun m => if m = n then v else f m

/-- `map_n_in_matrix` for a restricted size `r` and a sentence pair without entry (anjiMatrix.cc:471-498). -/
def Mem.assign {γ : Type} (m : Mem γ) (r n : Nat) : Mem γ :=
  let np := m.ptr
  let n2np := match m.np2n np with
    | some old => upd m.n2np old none
    | none => m.n2np
  let ent := match m.np2n np with
    | some _ => upd m.ent np (fun _ => none)
    | none => m.ent
  { maxn := m.maxn
    ptr := if m.ptr + 1 ≥ r then 0 else m.ptr + 1
    ent := ent
    np2n := upd m.np2n np (some n)
    n2np := upd n2np n (some np) }

/-- `init_nth_entry` with `map_n_in_matrix` (anjiMatrix.cc:53-79, 456-500): the entry of the sentence pair. -/
def Mem.initEntry {γ : Type} (m : Mem γ) (n : Nat) : Nat × Mem γ :=
  match m.maxn with
  | none => (n, m)
  | some 0 => (0, m)
  | some (r + 1) =>
    match m.n2np n with
    | some np => (np, m)
    | none => (m.ptr, m.assign (r + 1) n)

/-- `get_fast` (anjiMatrix.cc:384-392). -/
def Mem.getFast {γ : Type} (m : Mem γ) (np : Nat) (c : γ) : Option Rat := if m.maxn = some 0 then none else m.ent np c

/-- `set_fast` (anjiMatrix.cc:355-362). -/
def Mem.setFast {γ : Type} [DecidableEq γ] (m : Mem γ) (np : Nat) (c : γ) (v : Rat) : Mem γ :=
  if m.maxn = some 0 then m
  else { m with ent := upd m.ent np (fun c' => if c' = c then some v else m.ent np c') }

/-! ### Sufficient statistics -/

/-- A sentence pair for one family of parameters: its cells in the order of the loops, each with the parameter it
contributes to, and its weight. -/
structure Sent (γ G X : Type) where
  cells : List (γ × (G × X))
  weight : Rat

/-- `lexAuxVar`/`aligAuxVar`: current and new contributions to each parameter. -/
abbrev Aux (G X : Type) := List ((G × X) × (Rat × Rat))

/-- The numerator and denominator tables. -/
structure Tables (G X : Type) where
  num : List ((G × X) × Rat)
  den : List (G × Rat)

/-- State of the estimation. -/
structure Est (γ G X : Type) where
  mem : Mem γ
  tab : Tables G X

variable {γ G X : Type} [DecidableEq γ] [DecidableEq G] [DecidableEq X]

/-- `weighted_curr_lanji` (_incrHmmAligModel.cc:842-849, 1097-1103). -/
def wcurr (w : Rat) : Option Rat → Rat
  | some v => w * v
  | none => 0

/-- `fillEmAuxVarsLex`, `fillEmAuxVarsAlig` (_incrHmmAligModel.cc:832-876, 1087-1131): a cell with its parameter,
current and new weighted contributions. -/
def fillAux (aux : Aux G X) (key : G × X) (wc wn : Rat) : Aux G X :=
  match AMap.lk aux key with
  | some (a, b) => AMap.put aux key (a + wc, b + wn)
  | none => AMap.put aux key (wc, wn)

/-- One iteration of the loops of `gatherLexSuffStats`, `gatherAligSuffStats` (_incrHmmAligModel.cc:812-829,
1051-1084): accumulate, then store the new expected value. -/
def gatherCell (np : Nat) (w : Rat) (new : γ → Rat) (s : Mem γ × Aux G X) (c : γ × (G × X)) : Mem γ × Aux G X :=
  (s.1.setFast np c.1 (new c.1), fillAux s.2 c.2 (wcurr w (s.1.getFast np c.1)) (w * new c.1))

/-- The statistics of one sentence pair (_incrHmmAligModel.cc:719-770, 879-995). -/
def gatherSent (n : Nat) (snt : Sent γ G X) (new : γ → Rat) (s : Mem γ × Aux G X) : Mem γ × Aux G X :=
  let e := s.1.initEntry n
  snt.cells.foldl (gatherCell e.1 snt.weight new) (e.2, s.2)

/-- The body of the loop of `calcNewLocalSuffStats` (_incrHmmAligModel.cc:539-591); `corpus n` is `none` if the pair is
discarded for its lengths. -/
def gatherOne (corpus : Nat → Option (Sent γ G X)) (new : Nat → γ → Rat) (s : Mem γ × Aux G X) (n : Nat) :
    Mem γ × Aux G X :=
  match corpus n with
  | some snt => gatherSent n snt (new n) s
  | none => s

/-- `calcNewLocalSuffStats` for the range `[lo,hi]`. -/
def gatherRange (corpus : Nat → Option (Sent γ G X)) (new : Nat → γ → Rat) (lo hi : Nat) (s : Mem γ × Aux G X) :
    Mem γ × Aux G X :=
  (List.range' lo (hi + 1 - lo)).foldl (gatherOne corpus new) s

/-- `obtainLogNewSuffStat` (_incrHmmAligModel.cc:1364-1371). -/
def newSuffStat (cur c n : Rat) : Rat := cur - c + n

/-- One iteration of `updateParsLex`, `updateParsAlig` (_incrHmmAligModel.cc:1284-1317, 1328-1359). -/
def updateOne (t : Tables G X) (e : (G × X) × (Rat × Rat)) : Tables G X :=
  if e.2.1 ≠ e.2.2 then
    let numer := (AMap.lk t.num e.1).getD 0
    let denom := (AMap.lk t.den e.1.1).getD 0
    let newNumer := newSuffStat numer e.2.1 e.2.2
    let newDenom := denom - numer + newNumer
    { num := AMap.put t.num e.1 newNumer, den := AMap.put t.den e.1.1 newDenom }
  else t

/-- `trainSentPairRange` (_incrHmmAligModel.cc:58-73). -/
def train (corpus : Nat → Option (Sent γ G X)) (st : Est γ G X) (lo hi : Nat) (new : Nat → γ → Rat) : Est γ G X :=
  let r := gatherRange corpus new lo hi (st.mem, [])
  { mem := r.1, tab := r.2.foldl updateOne st.tab }

/-- `efficientBatchTrainingForRange` (_incrHmmAligModel.cc:82-102). -/
def batchTrain (corpus : Nat → Option (Sent γ G X)) (_st : Est γ G X) (lo hi : Nat) (new : Nat → γ → Rat) : Est γ G X :=
  let r := gatherRange corpus new lo hi (Mem.empty (some 0), [])
  { mem := r.1, tab := r.2.foldl updateOne { num := [], den := [] } }

/-- The cells of a sentence pair for the lexical parameters (_incrHmmAligModel.cc:818-828). -/
def lexCells (nsrc trg : List Nat) : List ((Nat × Nat) × (Nat × Nat)) :=
  (List.range' 1 trg.length).flatMap fun j =>
    (List.range' 1 nsrc.length).map fun i => ((j, i), (nsrc.getD (i - 1) 0, trg.getD (j - 1) 0))

/-- The cells of a sentence pair for the alignment parameters (_incrHmmAligModel.cc:1059-1083), for `n` positions
(twice the source length, or the source length in the model with fixed null probability). -/
def aligCells (slen n J : Nat) : List ((Nat × Nat × Nat) × ((Nat × Nat) × Nat)) :=
  (List.range' 1 J).flatMap fun j =>
    (List.range' 1 n).flatMap fun i =>
      if j = 1 then [((j, i, 0), ((0, slen), i))]
      else ((List.range' 1 n).filter fun ip => isValidAlig ip slen i).map fun ip => ((j, i, ip), ((ip, slen), i))

/-! ### Specification -/

/-- A call of the training function: the range of sentence pairs and the expected values computed for each of their
cells (they depend on the parameters at that moment and are left arbitrary). -/
structure Call (γ : Type) where
  lo : Nat
  hi : Nat
  new : Nat → γ → Rat

/-- The expected values of sentence pair `n` after the calls: those of the last call that trained it. -/
def lastVals : List (Call γ) → Nat → Option (γ → Rat)
  | [], _ => none
  | c :: cs, n =>
    match lastVals cs n with
    | some v => some v
    | none => if c.lo ≤ n ∧ n ≤ c.hi then some (c.new n) else none

/-- Contribution of a sentence pair, with expected values `v`, to parameter `key`. -/
def contrib (snt : Sent γ G X) (v : γ → Rat) (key : G × X) : Rat :=
  sumBy (fun c => if c.2 = key then snt.weight * v c.1 else 0) snt.cells

/-- Contribution of sentence pair `n` after the calls. -/
def contribOf (corpus : Nat → Option (Sent γ G X)) (h : List (Call γ)) (key : G × X) (n : Nat) : Rat :=
  match corpus n, lastVals h n with
  | some snt, some v => contrib snt v key
  | _, _ => 0

/-- The state after a list of training calls on an empty model. -/
def runCalls (corpus : Nat → Option (Sent γ G X)) (maxn : Option Nat) (h : List (Call γ)) : Est γ G X :=
  h.foldl (fun st c => train corpus st c.lo c.hi c.new) { mem := Mem.empty maxn, tab := { num := [], den := [] } }

end Thot.Hmm
