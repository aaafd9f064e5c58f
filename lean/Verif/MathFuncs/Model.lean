import Mathlib.Analysis.SpecialFunctions.Log.Basic
/-!
Model of `MathFuncs` (`src/nlp_common/MathFuncs.cc`).

A `double` is an exact real number, an infinity or not a number (`Dbl`); rounding and overflow are not modelled. Functions that are only
used with finite values are on `ℝ`. `unsigned int` is a natural number (subtractions that would wrap are excluded by hypotheses); GMP
integers are integers. `norm_*_cdf` (which need `erf`) and random numbers are not modelled.
-/
namespace Thot.MathFuncs

/-! ### Factorials and combinations -/

/-- `logFactorial`, MathFuncs.cc:30-39. -/
noncomputable def logFactorial (n : ℕ) : ℝ := (List.range' 1 n).foldl (fun (logf : ℝ) (i : ℕ) => logf + Real.log i) 0

/-- `logCombmn`, MathFuncs.cc:42-45. -/
noncomputable def logCombmn (m n : ℕ) : ℝ := logFactorial m - (logFactorial n + logFactorial (m - n))

/-- The loop `for(i=J;i>k;--i) result+=log(i)`, MathFuncs.cc:62-63, 70-71; `d` is `J-k`. -/
noncomputable def logFall (J : ℕ) : ℕ → ℝ → ℝ
  | 0, r => r
  | d + 1, r => logFall (J - 1) d (r + Real.log J)

/-- `logNumbPermsOfTwoElems`, MathFuncs.cc:48-78. -/
noncomputable def logNumbPermsOfTwoElems (J l : ℕ) : ℝ :=
  if l ≤ J then
    if l = 0 then 1
    else if J - l > l then logFall J l 0 - logFactorial l
    else logFall J (J - l) 0 - logFactorial (J - l)
  else 0

/-- `mp_factorial`, MathFuncs.cc:84-92. -/
def mpFactorial (n : ℕ) : ℤ := (List.range' 1 n).foldl (fun (r : ℤ) (i : ℕ) => r * i) 1

/-- `mpz_cdiv_q`: quotient rounded up. -/
def cdiv (a b : ℤ) : ℤ := -((-a) / b)

/-- `mp_logCombmn`, MathFuncs.cc:95-120. -/
def mpLogCombmn (m n : ℕ) : ℤ := cdiv (mpFactorial m) (mpFactorial n * mpFactorial (m - n))

/-- The loop `for(i=m;i>k;--i) mp_num*=i`, MathFuncs.cc:140-143, 157-160; `d` is `m-k`. -/
def mpFall (m : ℕ) : ℕ → ℤ → ℤ
  | 0, r => r
  | d + 1, r => mpFall (m - 1) d (r * m)

/-- `mp_numbPermsOfTwoElems`, MathFuncs.cc:123-169. -/
def mpNumbPermsOfTwoElems (m n : ℕ) : ℤ :=
  if n ≤ m then
    if n = 0 then 1
    else if m - n > n then cdiv (mpFall m n 1) (mpFactorial n)
    else cdiv (mpFall m (m - n) 1) (mpFactorial (m - n))
  else 0

/-! ### Distributions -/

/-- `log_poisson`, MathFuncs.cc:192-200, for a whole number `x` (all the callers). -/
noncomputable def logPoisson (x : ℕ) (lam : ℝ) : ℝ := (List.range' 1 x).foldl (fun (p : ℝ) (i : ℕ) => p - Real.log i) (-lam + x * Real.log lam)

/-- `poisson`, MathFuncs.cc:186-189. -/
noncomputable def poisson (x : ℕ) (lam : ℝ) : ℝ := Real.exp (logPoisson x lam)

/-- `poisson_cdf`, MathFuncs.cc:203-211, for a whole number `x`. -/
noncomputable def poissonCdf (x : ℕ) (lam : ℝ) : ℝ := (List.range (x + 1)).foldl (fun r k => r + poisson k lam) 0

/-- `log_geom`, MathFuncs.cc:286-291. -/
noncomputable def logGeom (p : ℝ) (n : ℕ) : ℝ := Real.log p + n * Real.log (1 - p)

/-- `geom`, MathFuncs.cc:280-283. -/
noncomputable def geom (p : ℝ) (n : ℕ) : ℝ := Real.exp (logGeom p n)

/-- `geom_cdf`, MathFuncs.cc:294-302. -/
noncomputable def geomCdf (p : ℝ) (n : ℕ) : ℝ := (List.range (n + 1)).foldl (fun r i => r + geom p i) 0

/-- `triang_cdf`, MathFuncs.cc:256-271. -/
noncomputable def triangCdf (a b c x : ℝ) : ℝ :=
  if a ≤ x ∧ x ≤ c then ((x - a) * (x - a)) / ((b - a) * (c - a))
  else if c < x ∧ x ≤ b then 1 - ((b - x) * (b - x)) / ((b - a) * (b - c))
  else 0

/-! ### Sums and differences of numbers given by their logarithms -/

/-- A `double`. -/
inductive Dbl where
  | ninf
  | fin (x : ℝ)
  | pinf
  | nan

namespace Dbl

/-- Addition of doubles. -/
noncomputable def add : Dbl → Dbl → Dbl
  | fin x, fin y => fin (x + y)
  | fin _, ninf => ninf
  | ninf, fin _ => ninf
  | ninf, ninf => ninf
  | fin _, pinf => pinf
  | pinf, fin _ => pinf
  | pinf, pinf => pinf
  | _, _ => nan

/-- Opposite of a double. -/
noncomputable def neg : Dbl → Dbl
  | fin x => fin (-x)
  | ninf => pinf
  | pinf => ninf
  | nan => nan

/-- Subtraction. -/
noncomputable def sub (x y : Dbl) : Dbl := add x (neg y)

/-- `exp`. -/
noncomputable def exp : Dbl → Dbl
  | fin x => fin (Real.exp x)
  | ninf => fin 0
  | pinf => pinf
  | nan => nan

open Classical in
/-- `log`. -/
noncomputable def log : Dbl → Dbl
  | fin x => if x = 0 then ninf else if 0 < x then fin (Real.log x) else nan
  | pinf => pinf
  | _ => nan

/-- `x>y`; false if one of them is not a number. -/
def gt : Dbl → Dbl → Prop
  | fin x, fin y => x > y
  | fin _, ninf => True
  | pinf, fin _ => True
  | pinf, ninf => True
  | _, _ => False

end Dbl

open Classical in
/-- `lns_sumlog`, MathFuncs.cc:317-327 (and `lns_sumlog_float`, 348-358). -/
noncomputable def lnsSumlog (logx logy : Dbl) : Dbl :=
  if logx.gt logy then logx.add (Dbl.log ((Dbl.fin 1).add (Dbl.exp (logy.sub logx))))
  else logy.add (Dbl.log ((Dbl.fin 1).add (Dbl.exp (logx.sub logy))))

/-- `lns_sum`, MathFuncs.cc:311-314. -/
noncomputable def lnsSum (x y : Dbl) : Dbl := lnsSumlog x.log y.log

/-- `lns_sublog`, MathFuncs.cc:336-339. -/
noncomputable def lnsSublog (logx logy : Dbl) : Dbl := logx.add (Dbl.log ((Dbl.fin 1).sub (Dbl.exp (logy.sub logx))))

/-- `lns_sub`, MathFuncs.cc:330-333. -/
noncomputable def lnsSub (x y : Dbl) : Dbl := lnsSublog x.log y.log

end Thot.MathFuncs
