import Verif.Common.Sum
/-!
Model of the hidden Markov word alignment model: `sw_models/_incrHmmAligModel.cc`,
`sw_models/_incrHmmP0AligModel.cc` and `sw_models/CachedHmmAligLgProb.cc`.

Numbers are exact rationals.  The Viterbi search is modelled in the logarithmic domain, where the code only
adds and compares (`log` values are arbitrary rationals).  The forward, alpha/beta and parameter
computations are modelled in the probability domain: `lns_sumlog`, `lns_sublog`, `+` and `-` on logarithms become
`+`, `-`, `*` and `/`, and `SMALL_LG_NUM` (whose exponential is zero in double precision) becomes `0`.
Matrices are functions from indices; every index the code uses is within the allocated size.
-/
namespace Thot.Hmm

open Thot.Sum

/-- `SMALL_LG_NUM` (nlp_common/MathDefs.h). -/
def small : Rat := -99999

/-- `NULL_WORD` (nlp_common/StatModelDefs.h), the index of the string `NULL`. -/
def nullWord : Nat := 0

/-- `HMM_SWM_MAX_SENT_LENGTH` (sw_models/SwDefs.h:47). -/
def maxSentLen : Nat := 200

/-- A matrix `vector<vector<T> >`, addressed `m[i][j]`. -/
abbrev Mat (α : Type) := Nat → Nat → α

/-- `m[i][j]=v`. -/
def Mat.put {α : Type} (m : Mat α) (i j : Nat) (v : α) : Mat α :=
  fun i' j' => if i' = i ∧ j' = j then v else m i' j'

/-- `for(k=1;k<=n;++k) s=f(s,k)`. -/
def forUp {σ : Type} (n : Nat) (f : σ → Nat → σ) (s : σ) : σ := (List.range' 1 n).foldl f s

/-- `for(k=n;k>=1;--k) s=f(s,k)`. -/
def forDown {σ : Type} (n : Nat) (f : σ → Nat → σ) (s : σ) : σ := (List.range' 1 n).reverse.foldl f s

/-! ### Sentences -/

/-- `_incrHmmAligModel::extendWithNullWord` (_incrHmmAligModel.cc:353-364). -/
def extendWithNull (src : List Nat) : List Nat := src ++ List.replicate src.length nullWord

/-- `_incrHmmAligModel::getSrcLen` (_incrHmmAligModel.cc:373-383). -/
def getSrcLen (nsrc : List Nat) : Nat := nsrc.countP (fun w => w != nullWord)

/-- `_incrHmmAligModel::sentenceLengthIsOk` (_incrHmmAligModel.cc:403-410). -/
def lenOk (s : List Nat) : Bool := !(s.isEmpty || decide (maxSentLen < s.length))

/-! ### Cache of alignment log-probabilities (sw_models/CachedHmmAligLgProb.cc) -/

/-- `CACHED_HMM_ALIG_LGPROB_VIT_INVALID_VAL` (CachedHmmAligLgProb.h:45). -/
def invalidVal : Rat := 99

/-- The three-level vector of cached values; a position outside the allocated size holds the invalid value
(`isDefined` treats both alike, and `set_boundary_check` fills the new positions with it). -/
abbrev Cache := Nat → Nat → Nat → Rat

/-- A cache just constructed, or after `clear` (CachedHmmAligLgProb.cc:109-112). -/
def Cache.empty : Cache := fun _ _ _ => invalidVal

/-- `isDefined` (CachedHmmAligLgProb.cc:53-69). -/
def Cache.isDefined (c : Cache) (p s i : Nat) : Bool := !decide (invalidVal ≤ c p s i)

/-- `set_boundary_check` (CachedHmmAligLgProb.cc:72-91). -/
def Cache.store (c : Cache) (p s i : Nat) (v : Rat) : Cache :=
  fun p' s' i' => if p' = p ∧ s' = s ∧ i' = i then v else c p' s' i'

/-- `if(!cached_logap.isDefined(..)) cached_logap.set_boundary_check(..,logaProb(..))`
(_incrHmmAligModel.cc:1486-1487 and 1498-1499). -/
def Cache.ensure (c : Cache) (la : Nat → Nat → Nat → Rat) (p s i : Nat) : Cache :=
  if c.isDefined p s i then c else c.store p s i (la p s i)

/-! ### Viterbi search (logarithmic domain) -/

/-- The scores used by the search: `logaProb(prev_i,slen,i)` and `logpts(s,t)`. -/
structure Scores where
  la : Nat → Nat → Nat → Rat
  lp : Nat → Nat → Rat

/-- State of `viterbiAlgorithmCached`: `vitMatrix`, `predMatrix` and the cache. -/
structure VSt where
  vit : Mat Rat
  pred : Mat Nat
  cache : Cache

/-- `cached_logpts` after `initCachedLexicalLps` (_incrHmmAligModel.cc:518-536). -/
def lexCell (S : Scores) (nsrc trg : List Nat) (i j : Nat) : Rat := S.lp (nsrc.getD (i - 1) 0) (trg.getD (j - 1) 0)

/-- The update of a cell when `j==1` (_incrHmmAligModel.cc:1483-1492). -/
def vitFirst (S : Scores) (nsrc trg : List Nat) (slen : Nat) (st : VSt) (i j : Nat) : VSt :=
  let c := st.cache.ensure S.la 0 slen i
  { vit := st.vit.put i j (c 0 slen i + lexCell S nsrc trg i j), pred := st.pred.put i j 0, cache := c }

/-- The body of the loop on `i_tilde` (_incrHmmAligModel.cc:1495-1510). -/
def vitInner (S : Scores) (nsrc trg : List Nat) (slen i j : Nat) (st : VSt) (it : Nat) : VSt :=
  let c := st.cache.ensure S.la it slen i
  let lp := st.vit it (j - 1) + c it slen i + lexCell S nsrc trg i j
  if lp > st.vit i j then { vit := st.vit.put i j lp, pred := st.pred.put i j it, cache := c }
  else { vit := st.vit, pred := st.pred, cache := c }

/-- The body of the loop on `i` (_incrHmmAligModel.cc:1481-1511). -/
def vitCell (S : Scores) (nsrc trg : List Nat) (slen j : Nat) (st : VSt) (i : Nat) : VSt :=
  if j = 1 then vitFirst S nsrc trg slen st i j
  else forUp nsrc.length (vitInner S nsrc trg slen i j) st

/-- `viterbiAlgorithmCached` (_incrHmmAligModel.cc:1452-1514). -/
def viterbi (S : Scores) (nsrc trg : List Nat) (c : Cache) : VSt :=
  let slen := getSrcLen nsrc
  forUp trg.length (fun st j => forUp nsrc.length (vitCell S nsrc trg slen j) st)
    { vit := fun _ _ => small, pred := fun _ _ => 0, cache := c }

/-- Choice of the last position (_incrHmmAligModel.cc:1535-1546): best value and its position. -/
def vitLast (n lastj : Nat) (vit : Mat Rat) : Rat × Nat :=
  (List.range' 2 (n - 1)).foldl (fun b i => if b.1 < vit i lastj then (vit i lastj, i) else b) (vit 1 lastj, 1)

/-- Following `predMatrix` from position `i` of target word `j` back to the first word
(_incrHmmAligModel.cc:1548-1552); the first `j` positions of `bestAlig`. -/
def vitTrace (pred : Mat Nat) : Nat → Nat → List Nat
  | _, 0 => []
  | i, j + 1 => vitTrace pred (pred i (j + 1)) j ++ [i]

/-- `bestAligGivenVitMatricesRaw` (_incrHmmAligModel.cc:1517-1557), with the extended source length and the
target length, from which the sizes of the matrices are known; `none` is an access outside of the vectors
(empty target sentence: `bestAlig[last_j-1]` with `last_j = 0`). -/
def bestAligRaw (n J : Nat) (vit : Mat Rat) (pred : Mat Nat) : Option (Rat × List Nat) :=
  if n = 0 then some (0, [])
  else if J = 0 then none
  else
    let b := vitLast n J vit
    some (b.1, vitTrace pred b.2 J)

/-- `bestAligGivenVitMatrices` (_incrHmmAligModel.cc:1560-1575). -/
def bestAligNull (slen : Nat) (r : Rat × List Nat) : Rat × List Nat :=
  (r.1, r.2.map (fun i => if i > slen then nullWord else i))

/-- `obtainBestAlignmentCached` (_incrHmmAligModel.cc:1405-1440): the log-probability, the alignment vector given to
`WordAligMatrix::putAligVec` (none when the sentences are rejected and the matrix is left empty) and the cache. -/
def obtainBestAlignment (S : Scores) (slm : Nat → Nat → Rat) (src trg : List Nat) (c : Cache) :
    Option (Rat × Option (List Nat) × Cache) :=
  if lenOk src && lenOk trg then
    let nsrc := extendWithNull src
    let st := viterbi S nsrc trg c
    (bestAligRaw nsrc.length trg.length st.vit st.pred).map fun r =>
      let r' := bestAligNull src.length r
      (slm src.length trg.length + r'.1, some r'.2, st.cache)
  else some (small, none, c)

/-! ### Parameters (probability domain) -/

/-- The parameter tables: lexical numerators and denominators, alignment numerators and denominators (indexed by
previous position, source length, position), the two interpolation factors and the target vocabulary size. -/
structure Pars where
  lexN : Nat → Nat → Option Rat
  lexD : Nat → Option Rat
  aN : Nat → Nat → Nat → Option Rat
  aD : Nat → Nat → Option Rat
  lam : Rat
  mu : Rat
  voc : Nat

/-- `unsmoothed_logpts` (_incrHmmAligModel.cc:174-198). -/
def Pars.uPts (P : Pars) (s t : Nat) : Rat :=
  match P.lexN s t with
  | some n => (match P.lexD s with | some d => n / d | none => 0)
  | none => 0

/-- `logpts`/`pts` (_incrHmmAligModel.cc:167-171, 201-207). -/
def Pars.pts (P : Pars) (s t : Nat) : Rat := (1 - P.lam) * P.uPts s t + P.lam * (1 / (P.voc : Rat))

/-- `isValidAlig` (_incrHmmAligModel.cc:1213-1226). -/
def isValidAlig (ip slen i : Nat) : Bool :=
  if i ≤ slen then true
  else if ip = 0 then true
  else decide (i - slen = (if ip > slen then ip - slen else ip))

/-- `isNullAlig` (_incrHmmAligModel.cc:1229-1242). -/
def isNullAlig (ip slen i : Nat) : Bool :=
  if i ≤ slen then false
  else if ip = 0 then true
  else decide (i - slen = (if ip > slen then ip - slen else ip))

/-- `getModifiedIp` (_incrHmmAligModel.cc:1245-1254). -/
def getModifiedIp (ip slen i : Nat) : Nat := if i ≤ slen ∧ ip > slen then ip - slen else ip

/-- `nullAligSpecialPar` (_incrHmmAligModel.cc:289-309): previous position and position of the parameter. -/
def nullAligSpecialPar (ip slen : Nat) : Nat × Nat :=
  if ip = 0 then (0, slen + 1)
  else
    let p := if ip > slen then ip - slen else ip
    (p, p + slen)

/-- `numer-denom` of an alignment parameter (_incrHmmAligModel.cc:248-264, _incrHmmP0AligModel.cc:155-175). -/
def Pars.ratio (P : Pars) (p slen i : Nat) : Rat :=
  match P.aN p slen i with
  | some n => (match P.aD p slen with | some d => n / d | none => 0)
  | none => 0

/-- `_incrHmmAligModel::unsmoothed_logaProb` (_incrHmmAligModel.cc:225-266). -/
def Pars.uA (P : Pars) (ip slen i : Nat) : Rat :=
  if isValidAlig ip slen i then
    if isNullAlig ip slen i then P.ratio (nullAligSpecialPar ip slen).1 slen (nullAligSpecialPar ip slen).2
    else P.ratio (getModifiedIp ip slen i) slen i
  else 0

/-- `_incrHmmP0AligModel::unsmoothed_logaProb` (_incrHmmP0AligModel.cc:132-178), with the probability `p0`. -/
def Pars.uA0 (P : Pars) (p0 : Rat) (ip slen i : Nat) : Rat :=
  if isValidAlig ip slen i then
    if isNullAlig ip slen i then (if ip = 0 then p0 / (slen : Rat) else p0)
    else P.ratio (getModifiedIp ip slen i) slen i * (1 - p0)
  else 0

/-- Which of the two models: the free null parameters (`none`) or a fixed null probability. -/
abbrev Kind := Option Rat

/-- The virtual call `unsmoothed_logaProb`. -/
def Pars.unsm (P : Pars) : Kind → Nat → Nat → Nat → Rat
  | none => P.uA
  | some p0 => P.uA0 p0

/-- `logaProb`/`aProb` (_incrHmmAligModel.cc:217-222, 312-332). -/
def Pars.aProb (P : Pars) (k : Kind) (ip slen i : Nat) : Rat :=
  if isValidAlig ip slen i then
    (1 - P.mu) * P.unsm k ip slen i +
      P.mu * (if ip = 0 then 1 / ((2 * slen : Nat) : Rat) else 1 / ((slen + 1 : Nat) : Rat))
  else P.unsm k ip slen i

/-! ### Forward algorithm, alpha and beta (probability domain) -/

/-- Transition and emission probabilities of one sentence pair: `exp(logaProb(i',slen,i))` and
`exp(cached_logpts[i][j])`. -/
structure Chain where
  tr : Nat → Nat → Rat
  em : Nat → Nat → Rat

/-- The chain of a sentence pair. -/
def Pars.chain (P : Pars) (k : Kind) (nsrc trg : List Nat) : Chain :=
  { tr := fun ip i => P.aProb k ip (getSrcLen nsrc) i
    em := fun i j => P.pts (nsrc.getD (i - 1) 0) (trg.getD (j - 1) 0) }

/-- The body of the loop on `i_tilde` of `forwardAlgorithm` and `calcAlphaMatrix`
(_incrHmmAligModel.cc:663-673, 1647-1656). -/
def fwdInner (C : Chain) (i j : Nat) (m : Mat Rat) (it : Nat) : Mat Rat :=
  let lp := m it (j - 1) * C.tr it i * C.em i j
  m.put i j (if it = 1 then lp else lp + m i j)

/-- The body of the loop on `i` (_incrHmmAligModel.cc:652-675, 1639-1658). -/
def fwdCell (C : Chain) (n j : Nat) (m : Mat Rat) (i : Nat) : Mat Rat :=
  if j = 1 then m.put i j (C.tr 0 i * C.em i j) else forUp n (fwdInner C i j) m

/-- The matrix of `forwardAlgorithm` (_incrHmmAligModel.cc:1618-1660) and of `calcAlphaMatrix` (638-676, where the
transition probabilities come from a cache); the entry `0.0` of row and column 0 is never read. -/
def fwdMatrix (C : Chain) (n J : Nat) : Mat Rat :=
  forUp J (fun m j => forUp n (fwdCell C n j) m) (fun _ _ => 0)

/-- `lgProbGivenForwardMatrix` (_incrHmmAligModel.cc:1684-1703). -/
def fwdTotal (n J : Nat) (m : Mat Rat) : Rat :=
  forUp n (fun lp i => if i = 1 then m i J else lp + m i J) 0

/-- `forwardAlgorithm` (_incrHmmAligModel.cc:1618-1681). -/
def forward (C : Chain) (n J : Nat) : Rat := fwdTotal n J (fwdMatrix C n J)

/-- The body of the loop on `i_tilde` of `calcBetaMatrix` (_incrHmmAligModel.cc:703-712). -/
def betaInner (C : Chain) (i j : Nat) (m : Mat Rat) (it : Nat) : Mat Rat :=
  let lp := m it (j + 1) * C.tr i it * C.em it (j + 1)
  m.put i j (if it = 1 then lp else lp + m i j)

/-- The body of the loop on `i` of `calcBetaMatrix` (_incrHmmAligModel.cc:693-714). -/
def betaCell (C : Chain) (n J j : Nat) (m : Mat Rat) (i : Nat) : Mat Rat :=
  if j = J then m.put i j 1 else forUp n (betaInner C i j) m

/-- `calcBetaMatrix` (_incrHmmAligModel.cc:679-716). -/
def betaMatrix (C : Chain) (n J : Nat) : Mat Rat :=
  forDown J (fun m j => forUp n (betaCell C n J j) m) (fun _ _ => 0)

/-- The accumulation of the numerators of `calc_lanji` (_incrHmmAligModel.cc:739-752). -/
def sumNums (num : Nat → Rat) (n : Nat) : Rat := forUp n (fun s i => if i = 1 then num i else s + num i) 0

/-- `calc_lanji_num` (_incrHmmAligModel.cc:1153-1162). -/
def lanjiNum (C : Chain) (n J i j : Nat) : Rat := fwdMatrix C n J i j * betaMatrix C n J i j

/-- The smoothing of expected values (_incrHmmAligModel.cc:758-761) between `lo` and `hi` (`exp(EXP_VAL_LOG_MIN)` and
`exp(EXP_VAL_LOG_MAX)`, _incrHmmAligModel.h:60-61). -/
def clip (lo hi v : Rat) : Rat :=
  let v := if v > hi then hi else v
  if v < lo then lo else v

/-- The expected value of `calc_lanji` (_incrHmmAligModel.cc:719-770) for positions `i`, `j`. -/
def lanji (C : Chain) (lo hi : Rat) (n J i j : Nat) : Rat :=
  clip lo hi (lanjiNum C n J i j / sumNums (fun i => lanjiNum C n J i j) n)

/-! ### Sum over all alignments: calcLgProb -/

/-- `calcLgProb` (_incrHmmAligModel.cc:1588-1615), with the sentence length probability. -/
def calcProb (P : Pars) (k : Kind) (slm : Nat → Nat → Rat) (src trg : List Nat) : Rat :=
  if lenOk src && lenOk trg then
    slm src.length trg.length * forward (P.chain k (extendWithNull src) trg) (extendWithNull src).length trg.length
  else 0

/-- `noisyOrLgProb` (_incrHmmAligModel.cc:1797-1822). -/
def noisyOr (P : Pars) (src trg : List Nat) : Rat :=
  trg.foldl (fun acc t => acc * (1 - src.foldl (fun p s => p * (1 - P.pts s t)) 1)) 1

end Thot.Hmm
