import Mathlib.Analysis.SpecialFunctions.Log.Basic
import Mathlib.Tactic.Linarith
import Mathlib.Tactic.Ring
import Mathlib.Tactic.FieldSimp
import Mathlib.Tactic.Positivity
import Mathlib.Tactic.NormNum
import Verif.Metrics.Ngram
/-!
Model of `stack_dec/bleu.cc` (corpus BLEU) and of `stack_dec/MiraBleu.{h,cc}` (the BLEU scorer of the weight updater).

Simplifications: `float` and `double` are real numbers (no rounding, no overflow), the counters `unsigned int` are
natural numbers, a sentence is the list of its tokens (the splitting of the lines is modelled in `Awk`, C41), and
the division of a positive number by zero is infinity, so that `exp(1-ref/0)` is 0.
-/
namespace Thot.Metrics

variable {α : Type} [DecidableEq α]

/-- `my_log` (bleu.cc:238-242). -/
noncomputable def myLog (x : ℝ) : ℝ := if x = 0 then -999999999 else Real.log x

/-- The local counters of `calc_bleuf` (bleu.cc:71-75); `precs n` is `precs[n-1]` and `total n` is `total[n-1]`. -/
structure BleuAcc where
  refWords : Nat
  sysWords : Nat
  precs : Nat → Nat
  total : Nat → Nat

/-- Their initial values (bleu.cc:71-87). -/
def BleuAcc.init : BleuAcc := ⟨0, 0, fun _ => 0, fun _ => 0⟩

/-- The body of the loop on lines (bleu.cc:113-152). -/
def BleuAcc.add (a : BleuAcc) (r s : List α) : BleuAcc :=
  ⟨a.refWords + r.length, a.sysWords + s.length, fun n => a.precs n + countMatches n s r,
    fun n => a.total n + numGrams n s⟩

/-- The loop on lines (bleu.cc:101-154): `none` is `THOT_ERROR` (the system file has fewer lines). -/
def bleuLoop : List (List α) → List (List α) → BleuAcc → Option BleuAcc
  | [], _, a => some a
  | _ :: _, [], _ => none
  | r :: rs, s :: ss, a => bleuLoop rs ss (a.add r s)

/-- Brevity penalty (bleu.cc:156-161, MiraBleu.cc:34-37). -/
noncomputable def brevity (ref sys : Nat) : ℝ :=
  if sys < ref then (if sys = 0 then 0 else Real.exp (1 - (ref : ℝ) / sys)) else 1

/-- `bleu_n[n-1]` (bleu.cc:168-169). -/
noncomputable def bleuN (a : BleuAcc) (n : Nat) : ℝ := if a.total n = 0 then 0 else (a.precs n : ℝ) / a.total n

/-- The accumulation of logarithms and the final product (bleu.cc:165-178), with `MAX_N` = 4. -/
noncomputable def bleuOf (a : BleuAcc) : ℝ :=
  brevity a.refWords a.sysWords *
    Real.exp ([1, 2, 3, 4].foldl (fun b n => b + (1 / 4 : ℝ) * myLog (bleuN a n)) 0)

/-- `calc_bleuf` (bleu.cc:62-188). -/
noncomputable def calcBleu (refs syss : List (List α)) : Option ℝ := (bleuLoop refs syss BleuAcc.init).map bleuOf

/-! ### `MiraBleu` -/

/-- The ten statistics of `MiraBleu` (MiraBleu.h:40): candidate length, reference length, and matches and totals for
n = 1..4 (here `prec n`, `tot n`). -/
structure Stats where
  clen : Nat
  rlen : Nat
  prec : Nat → Nat
  tot : Nat → Nat

/-- `MiraBleu::statsForSentence` (MiraBleu.cc:51-65). -/
def statsFor (cand ref : List α) : Stats :=
  ⟨cand.length, ref.length, fun n => countMatches n cand ref, fun n => numGrams n cand⟩

/-- A summand of the loop of `scoreFromStats` (MiraBleu.cc:41-44). -/
noncomputable def statTerm (s : Stats) (n : Nat) : ℝ :=
  if s.tot n = 0 then 1 else myLog ((s.prec n : ℝ) / s.tot n)

/-- `MiraBleu::scoreFromStats` (MiraBleu.cc:33-48). -/
noncomputable def scoreFromStats (s : Stats) : ℝ :=
  brevity s.rlen s.clen * Real.exp ([1, 2, 3, 4].foldl (fun b n => b + statTerm s n) 0 / 4)

/-- Addition of statistics (MiraBleu.cc:105-106, 125-126). -/
def Stats.add (a b : Stats) : Stats :=
  ⟨a.clen + b.clen, a.rlen + b.rlen, fun n => a.prec n + b.prec n, fun n => a.tot n + b.tot n⟩

def Stats.const (k : Nat) : Stats := ⟨k, k, fun _ => k, fun _ => k⟩

/-- `MiraBleu::sentScore` (MiraBleu.cc:94-109). -/
noncomputable def sentScore (cand ref : List α) : ℝ := scoreFromStats ((statsFor cand ref).add (Stats.const 1))

/-- `MiraBleu::corpusScore` (MiraBleu.cc:112-133), the list of the candidates with their references. -/
noncomputable def corpusScore (l : List (List α × List α)) : ℝ :=
  scoreFromStats (l.foldl (fun s p => s.add (statsFor p.1 p.2)) (Stats.const 0))

/-- The background statistics (MiraBleu.h:71), real numbers. -/
structure BgStats where
  clen : ℝ
  rlen : ℝ
  prec : Nat → ℝ
  tot : Nat → ℝ

/-- `resetBackgroundCorpus` (MiraBleu.h:44-48). -/
noncomputable def BgStats.reset : BgStats := ⟨1, 1, fun _ => 1, fun _ => 1⟩

/-- `updateBackgroundCorpus` (MiraBleu.h:50-55). -/
noncomputable def BgStats.update (b : BgStats) (s : Stats) (decay : ℝ) : BgStats :=
  ⟨decay * b.clen + s.clen, decay * b.rlen + s.rlen, fun n => decay * b.prec n + s.prec n,
    fun n => decay * b.tot n + s.tot n⟩

/-- The addition of the statistics of a sentence and the background, stored in `unsigned int` (MiraBleu.cc:79-81). -/
noncomputable def BgStats.plus (b : BgStats) (s : Stats) : Stats :=
  ⟨⌊s.clen + b.clen⌋₊, ⌊s.rlen + b.rlen⌋₊, fun n => ⌊s.prec n + b.prec n⌋₊, fun n => ⌊s.tot n + b.tot n⌋₊⟩

/-- `MiraBleu::sentBackgroundScore` (MiraBleu.cc:68-91). -/
noncomputable def sentBackgroundScore (b : BgStats) (cand ref : List α) : ℝ :=
  scoreFromStats (b.plus (statsFor cand ref)) * (b.plus (statsFor cand ref)).rlen

end Thot.Metrics
