import Verif.MathFuncs.Model
import Verif.SentHandler.Model
/-!
Model of `SrcSegmLenTable`, `TrgCutsTable` and `TrgSegmLenTable` (`src/phrase_models`).

Numbers are exact reals (the conversions to `float` are not modelled). `unsigned int` is a natural number, except the subtraction that gives the length
of the gap, which wraps modulo `2^32`. Access outside a segmentation is undefined behaviour (`none`). `atof` is a parameter; a file that cannot be opened
is `none`. The boolean result of `load` is `true` for an error.
-/
namespace Thot.SegmLen

open Thot.Awk (Str)

/-! ### Lengths of the source segments -/

/-- The two modes, SrcSegmLenTable.h:45-46. -/
inductive SrcMode where
  | uniform
  | geom
deriving DecidableEq

/-- `srcSegmLenLgProbUniform`, SrcSegmLenTable.cc:57-70. -/
noncomputable def srcUniform (x_km1 srcLen : ℕ) : ℝ :=
  if srcLen > 0 then Real.log 1 - Real.log ((srcLen : ℝ) - (x_km1 : ℝ)) else Real.log 1 - Real.log 101

/-- `SRCSEGMLEN_GEOM_HIT_PROB` and `TRGSEGMLEN_GEOM_HIT_PROB`, SrcSegmLenTable.h:47, TrgSegmLenTable.h:49. -/
noncomputable def hit : ℝ := 9 / 10

/-- `srcSegmLenLgProbGeom`, SrcSegmLenTable.cc:73-82. -/
noncomputable def srcGeom (x_k x_km1 : ℕ) : ℝ := Real.log hit + ((x_k - x_km1 : ℕ) : ℝ) * Real.log (1 - hit)

/-- `srcSegmLenLgProb`, SrcSegmLenTable.cc:43-54. -/
noncomputable def srcLgProb (m : SrcMode) (x_k x_km1 srcLen : ℕ) : ℝ :=
  match m with
  | .uniform => srcUniform x_km1 srcLen
  | .geom => srcGeom x_k x_km1

/-- The two comparisons of `SrcSegmLenTable::load`, SrcSegmLenTable.cc:100-109. -/
def srcModeOf (m : SrcMode) (w : Str) : SrcMode :=
  if w = "Geometric".toList then .geom else if w = "Uniform".toList then .uniform else m

/-- `SrcSegmLenTable::load`, SrcSegmLenTable.cc:85-113. -/
def srcLoad (m : SrcMode) : Option Str → Bool × SrcMode
  | none => (true, m)
  | some f => match Awk.getln f with
    | none => (false, m)
    | some (l, _) => (false, srcModeOf m (Awk.dollar ' ' l 1))

/-! ### Jumps -/

/-- The parameters of `TrgCutsTable`. -/
structure Cuts where
  jump : ℝ
  stop : ℝ

/-- The default parameters, TrgCutsTable.h:44-45, TrgCutsTable.cc:34-38. -/
noncomputable def cutsDefault : Cuts := ⟨1 - 999 / 1000, 999 / 1000⟩

/-- `trgCutsLgProb`, TrgCutsTable.cc:41-44. -/
noncomputable def cutsLgProb (c : Cuts) (offset : ℤ) : ℝ := (offset.natAbs : ℝ) * Real.log c.jump + Real.log c.stop

/-- `TrgCutsTable::load`, TrgCutsTable.cc:47-70. -/
noncomputable def cutsLoad (atof : Str → ℝ) (c : Cuts) : Option Str → Bool × Cuts
  | none => (true, cutsDefault)
  | some f => match Awk.getln f with
    | none => (false, c)
    | some (l, _) => (false, ⟨1 - atof (Awk.dollar ' ' l 1), atof (Awk.dollar ' ' l 1)⟩)

/-! ### Lengths of the target segments -/

/-- The three modes, TrgSegmLenTable.h:46-48. -/
inductive TrgMode where
  | uniform
  | poisson
  | geom
deriving DecidableEq

/-- The members of `TrgSegmLenTable`. -/
structure TrgTab where
  mode : TrgMode
  avgSrc : ℝ
  avgTrg : ℝ

/-- Constructor, TrgSegmLenTable.cc:34-39 (`MAX_SENTENCE_LENGTH/2` is 50). -/
noncomputable def trgInit : TrgTab := ⟨.uniform, 50, 50⟩

/-- The loop of `trgSegmLenLgProbUniform` over the previous segments, TrgSegmLenTable.cc:69-73. -/
def nextGap (left : ℕ) (prev : List (ℕ × ℕ)) (next : ℕ) : ℕ :=
  prev.foldl (fun next s => if s.1 > left ∧ next > s.1 then s.1 else next) next

/-- `nextGapStart-trgLeft+1` on unsigned numbers of 32 bits, TrgSegmLenTable.cc:75. -/
def gapLength (next left : ℕ) : ℕ := (((next : ℤ) - left + 1) % 2 ^ 32).toNat

/-- `trgSegmLenLgProbUniform`, TrgSegmLenTable.cc:56-79. -/
noncomputable def trgUniform (k : ℕ) (segm : List (ℕ × ℕ)) (trgLen : ℕ) : Option ℝ :=
  match segm[k]? with
  | none => none
  | some s => some (Real.log (1 / (gapLength (nextGap s.1 (segm.take k) trgLen) s.1 : ℝ)))

/-- `trgSegmLenLgProbPoisson`, TrgSegmLenTable.cc:82-91. -/
noncomputable def trgPoisson (t : TrgTab) (k : ℕ) (segm : List (ℕ × ℕ)) (lastSrc : ℕ) : Option ℝ :=
  match segm[k]? with
  | none => none
  | some s => some (MathFuncs.logPoisson (s.2 + 1 - s.1) (t.avgTrg / t.avgSrc * lastSrc))

/-- The difference of lengths, TrgSegmLenTable.cc:102-106. -/
def lenDiff (a b : ℕ) : ℕ := if a < b then b - a else a - b

/-- `trgSegmLenLgProbGeom`, TrgSegmLenTable.cc:94-112. -/
noncomputable def trgGeom (k : ℕ) (segm : List (ℕ × ℕ)) (lastSrc : ℕ) : Option ℝ :=
  match segm[k]? with
  | none => none
  | some s => some (Real.log hit + (lenDiff (s.2 + 1 - s.1) lastSrc : ℝ) * Real.log (1 - hit))

/-- `trgSegmLenLgProb`, TrgSegmLenTable.cc:42-53. -/
noncomputable def trgLgProb (t : TrgTab) (k : ℕ) (segm : List (ℕ × ℕ)) (trgLen lastSrc : ℕ) : Option ℝ :=
  match t.mode with
  | .uniform => trgUniform k segm trgLen
  | .poisson => trgPoisson t k segm lastSrc
  | .geom => trgGeom k segm lastSrc

/-- `readAvgSegmLen` on the contents of the file, TrgSegmLenTable.cc:162-203. After the end of the file `NF` and the line keep their values (`getline` of glibc does not change the buffer then), so that a file with one
line is read as if the line were repeated. -/
noncomputable def readAvg (atof : Str → ℝ) (t : TrgTab) (f : Str) : Bool × TrgTab :=
  match Awk.getln f with
  | none => (true, t)
  | some (l1, r) =>
    if Awk.getNF ' ' l1 = 6 then
      let t1 : TrgTab := { t with avgSrc := atof (Awk.dollar ' ' l1 6) }
      let l2 := match Awk.getln r with
        | none => l1
        | some (l, _) => l
      if Awk.getNF ' ' l2 = 6 then (false, { t1 with avgTrg := atof (Awk.dollar ' ' l2 6) }) else (true, t1)
    else (true, t)

/-- The result of `readAvgSegmLen` in `load`, TrgSegmLenTable.cc:137-147. -/
noncomputable def afterAvg (r : Bool × TrgTab) : Bool × TrgTab := if r.1 then (true, { r.2 with avgSrc := 50, avgTrg := 50 }) else r

/-- The comparisons of `TrgSegmLenTable::load`, TrgSegmLenTable.cc:129-154. -/
noncomputable def trgLoadWord (atof : Str → ℝ) (t : TrgTab) (f w : Str) : Bool × TrgTab :=
  if w = "Poisson".toList then afterAvg (readAvg atof { t with mode := .poisson } f)
  else if w = "Geometric".toList then (false, { t with mode := .geom })
  else if w = "Uniform".toList then (false, { t with mode := .uniform })
  else (false, t)

/-- `TrgSegmLenTable::load`, TrgSegmLenTable.cc:115-159. -/
noncomputable def trgLoad (atof : Str → ℝ) (t : TrgTab) : Option Str → Bool × TrgTab
  | none => (true, t)
  | some f => match Awk.getln f with
    | none => (false, t)
    | some (l, _) => trgLoadWord atof t f (Awk.dollar ' ' l 1)

end Thot.SegmLen
