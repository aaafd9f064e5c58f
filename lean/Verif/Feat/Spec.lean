import Verif.Feat.Model

/-! Specification of the value of the features for a complete or partial translation given as a list of phrases. -/
namespace Thot.Feat.Spec
open Thot.StrProc (Str)
open Thot.Meta (Segm)
open Thot.Search (srcPhrase)
open Thot.Feat

variable {R : Type} [CommRing R]

/-- The target words of a list of phrases. -/
def words (D : List Step) : List Str := D.flatMap (·.trg)
/-- Number of source words translated by a list of phrases. -/
def srcWords (D : List Step) : Nat := (D.map fun s => s.r + 1 - s.l).sum

/-- Log-probability of a sequence of words at the beginning of a sentence: each word given the ones before it. -/
def lmWords (m : LM R) (ws : List Str) : R :=
  ((List.range ws.length).map fun (i : Nat) => m.lgp (m.idx (ws.getD i [])) (m.addWords (ws.take i) m.bos)).sum

/-- Sum of the scores of the jumps between the end of a phrase and the beginning of the next one; `e` is the end of the
previous phrase. -/
def jumps (f : Nat → R) : Nat → List Step → R
  | _, [] => 0
  | e, s :: D => f ((s.l : Int) - (e + 1)).natAbs + jumps f s.r D

/-- Sum of the scores of the lengths of the target phrases; `x` is the number of target words before. -/
def trgLens (f : Nat → Nat → Nat → R) : Nat → List Step → R
  | _, [] => 0
  | x, s :: D => f (x + s.trg.length) x 0 + trgLens f (x + s.trg.length) D

/-- The first start of a phrase after position `l`, or the length of the sentence. -/
def nextStart (starts : List Nat) (n l : Nat) : Nat := (starts.filter fun b => decide (l < b)).foldl min n

/-- Score of the length of one source phrase, given the starts of the phrases translated before. -/
def srcLen1 (t : SegmLen R) (n : Nat) (starts : List Nat) (s : Step) : R :=
  match t with
  | .uniform logInv => logInv (nextStart starts n s.l - s.l + 1)
  | .poisson lp => lp (s.r + 1 - s.l) s.trg.length
  | .geom lp => lp (((s.r + 1 - s.l : Nat) : Int) - s.trg.length).natAbs

/-- Sum of the scores of the lengths of the source phrases. -/
def srcLens (t : SegmLen R) (n : Nat) : List Nat → List Step → R
  | _, [] => 0
  | starts, s :: D => srcLen1 t n starts s + srcLens t n (starts ++ [s.l]) D

/-- The value of a feature for the translation given by a list of phrases, of a source sentence. -/
def total (ft : Feat R) (src : List Str) (D : List Step) : R :=
  match ft with
  | .phr f => (D.map fun s => f (srcPhrase src s.l s.r) s.trg).sum
  | .lm m => lmWords m (words D) + if srcWords D = src.length then m.eos (m.addWords (words D) m.bos) else 0
  | .wp m => if srcWords D = src.length then m.score (words D).length else m.sum (words D).length
  | .jump f => jumps f 0 D
  | .srcLen t => srcLens t src.length [] D
  | .trgLen f => trgLens f 0 D

/-- A sequence of extensions of the null hypothesis of a sentence of `n` words: each one adds some phrase, each phrase
translates some word, and no more than `n` words are translated. -/
structure Hist (n : Nat) (groups : List (List Step)) : Prop where
  pos : 0 < n
  some : ∀ g ∈ groups, g ≠ []
  seg : ∀ s ∈ groups.flatten, s.l ≤ s.r
  fits : srcWords groups.flatten ≤ n

end Thot.Feat.Spec
