import Verif.Feat.Lemmas
/-!
Model of the score of the hypotheses of the translation model `PhrLocalSwLiTm` (`/repo/src/stack_dec/PhrLocalSwLiTm.cc`,
`_phrSwTransModel.h`): `nullHypothesis`, `incrScore` and the contribution of the sentence length.

Simplifications, as in `Verif.Feat.Model`: scores are elements of a commutative ring, words are strings, the models are
arbitrary functions (with their weights included); the key of a hypothesis is the set of the covered source positions.
-/
namespace Thot.SwLi
open Thot.StrProc (Str)
open Thot.Search (HypData extend nullData srcPhrase covered)
open Thot.Feat (LM LMState WP SegmLen Step addSteps segm trgPhr newSegms jumpOf numCovered)

/-- The weighted score functions used by `incrScore`; `part` is `sentLenScoreForPartialHyp(key, tlen)` and `full` is
`sentLenScore(slen, tlen)`. -/
structure Mod (R : Type) where
  wp : WP R
  lm : LM R
  tlen : Nat → Nat → Nat → R
  jump : Nat → R
  slen : SegmLen R
  pts : List Str → List Str → R
  pst : List Str → List Str → R
  part : (Nat → Bool) → Nat → R
  full : Nat → Nat → R

/-- `scoreComponents`, of `getNumWeights()=8` elements (PhrLocalSwLiTm.h: WPEN … PST, and the sentence length). -/
structure Comps (R : Type) where
  wpen : R
  lmodel : R
  tsegm : R
  sjump : R
  ssegm : R
  pts : R
  pst : R
  len : R

/-- Values of the variables while the loop runs: PhrLocalSwLiTm.cc:1191-1199. -/
structure LSt (R : Type) where
  c : Comps R
  hist : LMState
  trglen : Nat
  key : Nat → Bool

section
variable {R : Type} [CommRing R]

/-- `hypKey.set(j)` for `j` in `l..r`. PhrLocalSwLiTm.cc:1256-1257. -/
def setKey (key : Nat → Bool) (l r : Nat) : Nat → Bool := fun j => key j || (decide (l ≤ j) && decide (j ≤ r))

/-- One iteration of the loop over the new segments. PhrLocalSwLiTm.cc:1201-1263. -/
def iter (m : Mod R) (src : List Str) (new : HypData) (p : LSt R) (i : Nat) : LSt R :=
  let t := trgPhr new i
  let n := m.lm.ngramScore t p.hist
  let s := srcPhrase src (segm new i).1 (segm new i).2
  let key := setKey p.key (segm new i).1 (segm new i).2
  ⟨⟨p.c.wpen - m.wp.sum p.trglen + m.wp.sum (p.trglen + t.length),
    p.c.lmodel + n.1,
    p.c.tsegm + m.tlen (p.trglen + t.length) p.trglen 0,
    p.c.sjump + m.jump (jumpOf new i),
    p.c.ssegm + m.slen.lgProb i new.srcSegm src.length t.length,
    p.c.pts + m.pts s t,
    p.c.pst + m.pst s t,
    p.c.len - m.part p.key p.trglen + m.part key (p.trglen + t.length)⟩,
   n.2, p.trglen + t.length, key⟩

/-- What is done when the hypothesis becomes complete. PhrLocalSwLiTm.cc:1264-1277. -/
def close (m : Mod R) (n : Nat) (p : LSt R) : LSt R :=
  { p with
    c := { p.c with
      wpen := p.c.wpen - m.wp.sum p.trglen + m.wp.score p.trglen
      lmodel := p.c.lmodel + m.lm.eos p.hist
      len := p.c.len - m.part p.key p.trglen + m.full n p.trglen }
    hist := m.lm.eosNext p.hist }

/-- The vector of zeros. PhrLocalSwLiTm.cc:1197-1199. -/
def zeroC : Comps R := ⟨0, 0, 0, 0, 0, 0, 0, 0⟩

/-- PhrLocalSwLiTm.cc:1279-1281: the sum of the components. -/
def Comps.total (c : Comps R) : R := c.wpen + c.lmodel + c.tsegm + c.sjump + c.ssegm + c.pts + c.pst + c.len

/-- `PhrScoreInfo` and data of a hypothesis. -/
structure Hyp (R : Type) where
  score : R
  hist : LMState
  data : HypData

/-- PhrLocalSwLiTm.cc:1186-1287 `incrScore`: the new hypothesis and the components. The numbers of uncovered words are
`unsigned int` differences, zero exactly when as many words as the sentence has are covered. -/
def incrScore (m : Mod R) (src : List Str) (h : Hyp R) (new : HypData) : Hyp R × Comps R :=
  let p := (newSegms h.data new).foldl (iter m src new) ⟨zeroC, h.hist, h.data.ntarget.length - 1, covered h.data⟩
  let p := if numCovered new = src.length ∧ ¬ numCovered h.data = src.length then close m src.length p else p
  (⟨h.score + p.c.total, p.hist, new⟩, p.c)

/-- PhrLocalSwLiTm.cc:393-422 `nullHypothesis`. -/
def nullHyp (m : Mod R) : Hyp R := ⟨0 + m.wp.sum 0 + m.part (covered nullData) 0, m.lm.bos, nullData⟩

/-- A hypothesis built from the null hypothesis by any sequence of extensions of several phrases. -/
def build (m : Mod R) (src : List Str) (groups : List (List Step)) : Hyp R :=
  groups.foldl (fun h g => (incrScore m src h (addSteps h.data g)).1) (nullHyp m)

end
end Thot.SwLi
