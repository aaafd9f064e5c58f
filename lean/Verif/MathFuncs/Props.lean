import Verif.MathFuncs.Model
import Mathlib.Analysis.SpecialFunctions.Exponential
import Mathlib.Analysis.SpecificLimits.Basic
import Mathlib.Data.Nat.Choose.Basic
import Mathlib.Tactic.Positivity
import Mathlib.Tactic.FieldSimp
import Mathlib.Tactic.Linarith
import Mathlib.Analysis.Calculus.Deriv.Pow
import Mathlib.Analysis.Calculus.Deriv.Mul
import Mathlib.Analysis.Calculus.Deriv.Add
/-! C172–C175: mathematical functions. -/
namespace Thot.MathFuncs

/-! ### Factorials and combinations -/

theorem logFactorial_eq (n : ℕ) : logFactorial n = Real.log (n.factorial : ℝ) := by
  unfold logFactorial
  induction n with
  | zero => simp
  | succ n ih =>
    rw [List.range'_1_concat, List.foldl_append, ih]
    simp only [List.foldl_cons, List.foldl_nil]
    rw [Nat.factorial_succ, Nat.cast_mul, Real.log_mul (by positivity) (by positivity), add_comm 1 n, add_comm]

theorem logFall_eq (d J : ℕ) (h : d ≤ J) (r : ℝ) : logFall J d r = r + Real.log (J.descFactorial d : ℝ) := by
  induction d generalizing J r with
  | zero => simp [logFall]
  | succ d ih =>
    obtain ⟨K, rfl⟩ : ∃ K, J = K + 1 := ⟨J - 1, by omega⟩
    rw [logFall, Nat.add_sub_cancel, ih K (by omega), Nat.succ_descFactorial_succ, Nat.cast_mul,
      Real.log_mul (by positivity) (by have := Nat.pos_of_ne_zero (Nat.descFactorial_eq_zero_iff_lt.not.2 (by omega : ¬ K < d)); positivity)]
    ring

theorem log_choose {m n : ℕ} (h : n ≤ m) :
    Real.log (m.descFactorial n : ℝ) - Real.log (n.factorial : ℝ) = Real.log (m.choose n : ℝ) := by
  rw [Nat.descFactorial_eq_factorial_mul_choose, Nat.cast_mul, Real.log_mul (by positivity)
    (by have := Nat.choose_pos h; positivity)]
  ring

/-- **C172 (logarithms, partial).** `logFactorial` is the logarithm of the factorial, `logCombmn` the one of the number of combinations, and
so is `logNumbPermsOfTwoElems` except for `l=0`. Missing: `l=0`. -/
theorem C172_logs_partial :
    (∀ n, logFactorial n = Real.log (n.factorial : ℝ)) ∧
    (∀ m n, n ≤ m → logCombmn m n = Real.log (m.choose n : ℝ)) ∧
    (∀ J l, 0 < l → l ≤ J → logNumbPermsOfTwoElems J l = Real.log (J.choose l : ℝ)) := by
  refine ⟨logFactorial_eq, ?_, ?_⟩
  · intro m n h
    unfold logCombmn
    rw [logFactorial_eq, logFactorial_eq, logFactorial_eq]
    have h1 := Nat.choose_mul_factorial_mul_factorial h
    rw [← h1, Nat.cast_mul, Nat.cast_mul, Real.log_mul (by have := Nat.choose_pos h; positivity) (by positivity),
      Real.log_mul (by have := Nat.choose_pos h; positivity) (by positivity)]
    ring
  · intro J l h0 h
    unfold logNumbPermsOfTwoElems
    rw [if_pos h, if_neg (by omega)]
    split
    · rw [logFall_eq l J h, logFactorial_eq, zero_add, log_choose h]
    · rw [logFall_eq (J - l) J (by omega), logFactorial_eq, zero_add, log_choose (by omega), Nat.choose_symm h]

/-- **C172, full statement of the last part:** also for `l=0`. -/
def C172_full : Prop := ∀ J l, l ≤ J → logNumbPermsOfTwoElems J l = Real.log (J.choose l : ℝ)

theorem C172_counterexample : ¬ C172_full := by
  intro h
  have := h 1 0 (by omega)
  simp [logNumbPermsOfTwoElems] at this

theorem mpFactorial_eq (n : ℕ) : mpFactorial n = (n.factorial : ℤ) := by
  unfold mpFactorial
  induction n with
  | zero => simp
  | succ n ih =>
    rw [List.range'_1_concat, List.foldl_append, ih]
    simp only [List.foldl_cons, List.foldl_nil]
    rw [Nat.factorial_succ]; push_cast; ring

theorem mpFall_eq (d m : ℕ) (h : d ≤ m) (r : ℤ) : mpFall m d r = r * (m.descFactorial d : ℤ) := by
  induction d generalizing m r with
  | zero => simp [mpFall]
  | succ d ih =>
    obtain ⟨K, rfl⟩ : ∃ K, m = K + 1 := ⟨m - 1, by omega⟩
    rw [mpFall, Nat.add_sub_cancel, ih K (by omega), Nat.succ_descFactorial_succ]
    push_cast; ring

theorem cdiv_mul (a b : ℤ) (h : b ≠ 0) : cdiv (b * a) b = a := by
  unfold cdiv
  rw [show -(b * a) = b * (-a) by ring, Int.mul_ediv_cancel_left _ h]
  ring

/-- **C172 (integers).** The two functions on integers give the number of combinations, exactly. -/
theorem C172_integers :
    (∀ m n, n ≤ m → mpLogCombmn m n = (m.choose n : ℤ)) ∧ (∀ m n, mpNumbPermsOfTwoElems m n = (m.choose n : ℤ)) := by
  constructor
  · intro m n h
    unfold mpLogCombmn
    rw [mpFactorial_eq, mpFactorial_eq, mpFactorial_eq, ← Nat.choose_mul_factorial_mul_factorial h]
    push_cast
    rw [show (m.choose n : ℤ) * n.factorial * (m - n).factorial = ((n.factorial : ℤ) * (m - n).factorial) * m.choose n by ring]
    exact cdiv_mul _ _ (by positivity)
  · intro m n
    unfold mpNumbPermsOfTwoElems
    split
    · rename_i h
      split
      · rename_i h0; rw [h0]; simp
      · split
        · rw [mpFall_eq n m h, mpFactorial_eq, one_mul, Nat.descFactorial_eq_factorial_mul_choose]
          push_cast
          exact cdiv_mul _ _ (by positivity)
        · rw [mpFall_eq (m - n) m (by omega), mpFactorial_eq, one_mul, Nat.descFactorial_eq_factorial_mul_choose]
          push_cast
          rw [cdiv_mul _ _ (by positivity), Nat.choose_symm h]
    · rename_i h
      rw [Nat.choose_eq_zero_of_lt (by omega)]; rfl

/-- Non-vacuity. -/
example : mpNumbPermsOfTwoElems 5 2 = 10 ∧ mpNumbPermsOfTwoElems 5 4 = 5 ∧ mpLogCombmn 6 3 = 20 := by decide +kernel

/-! ### Distributions -/

theorem poisson_eq (x : ℕ) (lam : ℝ) (h : 0 < lam) : poisson x lam = Real.exp (-lam) * (lam ^ x / (x.factorial : ℝ)) := by
  unfold poisson logPoisson
  have key : ∀ (n : ℕ) (s : ℝ), (List.range' 1 n).foldl (fun (p : ℝ) (i : ℕ) => p - Real.log i) s = s - Real.log (n.factorial : ℝ) := by
    intro n s
    induction n with
    | zero => simp
    | succ n ih =>
      rw [List.range'_1_concat, List.foldl_append, ih]
      simp only [List.foldl_cons, List.foldl_nil]
      rw [Nat.factorial_succ, Nat.cast_mul, Real.log_mul (by positivity) (by positivity), add_comm 1 n]
      ring
  rw [key, Real.exp_sub, Real.exp_add, Real.exp_log (by positivity), Real.exp_nat_mul, Real.exp_log h]
  ring

theorem foldl_sum (f : ℕ → ℝ) (n : ℕ) : (List.range n).foldl (fun r k => r + f k) 0 = ∑ k ∈ Finset.range n, f k := by
  induction n with
  | zero => simp
  | succ n ih => rw [List.range_succ, List.foldl_append, ih, Finset.sum_range_succ]; rfl

/-- **C173 (Poisson).** For a positive mean the probabilities are the ones of the Poisson distribution: they are positive, their sum is 1, and
`poisson_cdf` is the sum of the first ones, so it is below 1. -/
theorem C173_poisson (lam : ℝ) (h : 0 < lam) :
    (∀ x, poisson x lam = Real.exp (-lam) * lam ^ x / (x.factorial : ℝ)) ∧ HasSum (fun x => poisson x lam) 1 ∧
    (∀ x, poissonCdf x lam = ∑ k ∈ Finset.range (x + 1), poisson k lam) ∧ ∀ x, poissonCdf x lam < 1 := by
  have hs : HasSum (fun x => poisson x lam) 1 := by
    have h1 : HasSum (fun n : ℕ => lam ^ n / (n.factorial : ℝ)) (Real.exp lam) := by
      rw [Real.exp_eq_exp_ℝ]; exact NormedSpace.expSeries_div_hasSum_exp lam
    have h2 := h1.mul_left (Real.exp (-lam))
    rw [← Real.exp_add, neg_add_cancel, Real.exp_zero] at h2
    exact (funext fun x => poisson_eq x lam h : (fun x => poisson x lam) = _) ▸ h2
  have hc : ∀ x, poissonCdf x lam = ∑ k ∈ Finset.range (x + 1), poisson k lam := fun x => foldl_sum _ _
  refine ⟨fun x => by rw [poisson_eq x lam h]; ring, hs, hc, fun x => ?_⟩
  rw [hc]
  have hlt : ∑ k ∈ Finset.range (x + 1), poisson k lam < ∑ k ∈ Finset.range (x + 2), poisson k lam := by
    rw [Finset.sum_range_succ _ (x + 1)]
    exact lt_add_of_pos_right _ (Real.exp_pos _)
  exact lt_of_lt_of_le hlt (sum_le_hasSum _ (fun i _ => (Real.exp_pos _).le) hs)

theorem geom_eq (p : ℝ) (n : ℕ) (h0 : 0 < p) (h1 : p < 1) : geom p n = p * (1 - p) ^ n := by
  unfold geom logGeom
  rw [Real.exp_add, Real.exp_log h0, Real.exp_nat_mul, Real.exp_log (by linarith)]

/-- **C173 (geometric).** For `0<p<1` the probabilities are `p(1-p)^n`, their sum is 1, and `geom_cdf` is `1-(1-p)^(n+1)`. -/
theorem C173_geom (p : ℝ) (h0 : 0 < p) (h1 : p < 1) :
    (∀ n, geom p n = p * (1 - p) ^ n) ∧ HasSum (fun n => geom p n) 1 ∧ ∀ n, geomCdf p n = 1 - (1 - p) ^ (n + 1) := by
  refine ⟨fun n => geom_eq p n h0 h1, ?_, ?_⟩
  · have h2 := (hasSum_geometric_of_lt_one (r := 1 - p) (by linarith) (by linarith)).mul_left p
    rw [sub_sub_cancel, mul_inv_cancel₀ h0.ne'] at h2
    exact (funext fun n => geom_eq p n h0 h1 : (fun n => geom p n) = _) ▸ h2
  · intro n
    unfold geomCdf
    rw [foldl_sum, Finset.sum_congr rfl fun k _ => geom_eq p k h0 h1]
    induction n with
    | zero => simp
    | succ n ih => rw [Finset.sum_range_succ, ih]; ring

/-- **C174 (partial).** For `a<c<b` the function is the one of the triangular distribution on `(-∞,b]`: 0 up to `a`, 1 at `b` and not
decreasing in between, with values between 0 and 1. Missing: above `b` it should be 1. -/
theorem C174_triang_partial (a b c : ℝ) (h1 : a < c) (h2 : c < b) :
    (∀ x, x ≤ a → triangCdf a b c x = 0) ∧ triangCdf a b c b = 1 ∧
    (∀ x, x ≤ b → 0 ≤ triangCdf a b c x ∧ triangCdf a b c x ≤ 1) ∧
    ∀ x y, x ≤ y → y ≤ b → triangCdf a b c x ≤ triangCdf a b c y := by
  have hba : 0 < b - a := by linarith
  have hca : 0 < c - a := by linarith
  have hbc : 0 < b - c := by linarith
  have e1 : ∀ x, a ≤ x → x ≤ c → triangCdf a b c x = ((x - a) * (x - a)) / ((b - a) * (c - a)) :=
    fun x h h' => by unfold triangCdf; rw [if_pos ⟨h, h'⟩]
  have e2 : ∀ x, c < x → x ≤ b → triangCdf a b c x = 1 - ((b - x) * (b - x)) / ((b - a) * (b - c)) :=
    fun x h h' => by unfold triangCdf; rw [if_neg (fun h3 => absurd h3.2 (not_le.2 h)), if_pos ⟨h, h'⟩]
  have e3 : ∀ x, x < a → triangCdf a b c x = 0 :=
    fun x h => by unfold triangCdf; rw [if_neg (fun h3 => absurd h3.1 (not_le.2 h)), if_neg (fun h3 => absurd h3.1 (by linarith))]
  have ha : triangCdf a b c a = 0 := by rw [e1 a le_rfl h1.le]; simp
  have hb : triangCdf a b c b = 1 := by rw [e2 b h2 le_rfl]; simp
  have hc1 : ∀ x, a ≤ x → x ≤ c → triangCdf a b c x ≤ (c - a) / (b - a) := by
    intro x h h'
    rw [e1 x h h', div_le_div_iff₀ (by positivity) hba]
    have h4 : (x - a) * (x - a) ≤ (c - a) * (c - a) := mul_le_mul (by linarith) (by linarith) (by linarith) hca.le
    nlinarith
  have hc2 : ∀ x, c < x → x ≤ b → (c - a) / (b - a) ≤ triangCdf a b c x := by
    intro x h h'
    rw [e2 x h h']
    have h4 : (b - x) * (b - x) ≤ (b - c) * (b - c) := mul_le_mul (by linarith) (by linarith) (by linarith) hbc.le
    have h5 : (b - x) * (b - x) / ((b - a) * (b - c)) ≤ (b - c) / (b - a) := by
      rw [div_le_div_iff₀ (by positivity) hba]; nlinarith
    have h6 : (c - a) / (b - a) = 1 - (b - c) / (b - a) := by field_simp; ring
    linarith
  have mono : ∀ x y, x ≤ y → y ≤ b → triangCdf a b c x ≤ triangCdf a b c y := by
    intro x y hxy hy
    have h0 : ∀ z, a ≤ z → z ≤ b → 0 ≤ triangCdf a b c z := by
      intro z hz hz'
      by_cases hzc : z ≤ c
      · rw [e1 z hz hzc]; exact div_nonneg (mul_self_nonneg _) (by positivity)
      · exact le_trans (by positivity) (hc2 z (not_le.1 hzc) hz')
    by_cases hxa : x < a
    · rw [e3 x hxa]
      by_cases hya : y < a
      · rw [e3 y hya]
      · exact h0 y (not_lt.1 hya) hy
    · have hxa := not_lt.1 hxa
      by_cases hyc : y ≤ c
      · rw [e1 x hxa (hxy.trans hyc), e1 y (hxa.trans hxy) hyc]
        apply div_le_div_of_nonneg_right _ (by positivity)
        exact mul_le_mul (by linarith) (by linarith) (by linarith) (by linarith)
      · have hyc := not_le.1 hyc
        by_cases hxc : x ≤ c
        · exact (hc1 x hxa hxc).trans (hc2 y hyc hy)
        · rw [e2 x (not_le.1 hxc) (hxy.trans hy), e2 y hyc hy]
          have h4 : (b - y) * (b - y) ≤ (b - x) * (b - x) := mul_le_mul (by linarith) (by linarith) (by linarith) (by linarith)
          have := div_le_div_of_nonneg_right h4 (show 0 ≤ (b - a) * (b - c) by positivity)
          linarith
  refine ⟨fun x hx => ?_, hb, fun x hx => ⟨?_, ?_⟩, mono⟩
  · rcases lt_or_eq_of_le hx with h | h
    · exact e3 x h
    · rw [h]; exact ha
  · by_cases hxa : x < a
    · rw [e3 x hxa]
    · have := mono a x (not_lt.1 hxa) hx; rwa [ha] at this
  · have := mono x b hx le_rfl; rwa [hb] at this

/-- **C174 (density).** Between `a` and `b` the function is continuous at `c` (the two pieces meet there) and its derivative is the density of the triangular
distribution, which grows linearly from 0 at `a` to `2/(b-a)` at `c` and falls linearly to 0 at `b`. -/
theorem C174_density (a b c : ℝ) (h1 : a < c) (h2 : c < b) :
    (∀ x, a < x → x < c → HasDerivAt (triangCdf a b c) (2 / (b - a) * ((x - a) / (c - a))) x) ∧
    (∀ x, c < x → x < b → HasDerivAt (triangCdf a b c) (2 / (b - a) * ((b - x) / (b - c))) x) ∧
    triangCdf a b c c = (c - a) / (b - a) ∧ ContinuousAt (triangCdf a b c) c := by
  have hba : b - a ≠ 0 := by intro h; linarith
  have hca : c - a ≠ 0 := by intro h; linarith
  have hbc : b - c ≠ 0 := by intro h; linarith
  have e1 : ∀ x, a ≤ x → x ≤ c → triangCdf a b c x = ((x - a) * (x - a)) / ((b - a) * (c - a)) :=
    fun x h h' => by unfold triangCdf; rw [if_pos ⟨h, h'⟩]
  have e2 : ∀ x, c < x → x ≤ b → triangCdf a b c x = 1 - ((b - x) * (b - x)) / ((b - a) * (b - c)) :=
    fun x h h' => by unfold triangCdf; rw [if_neg (fun h3 => absurd h3.2 (not_le.2 h)), if_pos ⟨h, h'⟩]
  have d1 : ∀ x, HasDerivAt (fun y : ℝ => ((y - a) * (y - a)) / ((b - a) * (c - a))) (2 / (b - a) * ((x - a) / (c - a))) x := by
    intro x
    have h0 : HasDerivAt (fun y : ℝ => y - a) 1 x := (hasDerivAt_id x).sub_const a
    have h := (HasDerivAt.mul h0 h0).div_const ((b - a) * (c - a))
    refine HasDerivAt.congr_deriv h ?_
    field_simp
    ring
  have d2 : ∀ x, HasDerivAt (fun y : ℝ => 1 - ((b - y) * (b - y)) / ((b - a) * (b - c))) (2 / (b - a) * ((b - x) / (b - c))) x := by
    intro x
    have h0 : HasDerivAt (fun y : ℝ => b - y) (-1) x := by simpa using (hasDerivAt_id x).const_sub b
    have h := ((HasDerivAt.mul h0 h0).div_const ((b - a) * (b - c))).const_sub 1
    refine HasDerivAt.congr_deriv h ?_
    field_simp
    ring
  have ec : triangCdf a b c c = (c - a) / (b - a) := by rw [e1 c h1.le le_rfl]; field_simp
  refine ⟨fun x ha hc => ?_, fun x hc hb => ?_, ec, ?_⟩
  · refine (d1 x).congr_of_eventuallyEq ?_
    filter_upwards [Ioo_mem_nhds ha hc] with y hy using e1 y hy.1.le hy.2.le
  · refine (d2 x).congr_of_eventuallyEq ?_
    filter_upwards [Ioo_mem_nhds hc hb] with y hy using e2 y hy.1 hy.2.le
  · rw [continuousAt_iff_continuous_left'_right']
    constructor
    · have h := (d1 c).continuousAt.continuousWithinAt (s := Set.Iio c)
      refine h.congr_of_eventuallyEq ?_ (e1 c h1.le le_rfl)
      filter_upwards [Ioo_mem_nhdsLT h1] with y hy using e1 y hy.1.le hy.2.le
    · have h := (d2 c).continuousAt.continuousWithinAt (s := Set.Ioi c)
      refine h.congr_of_eventuallyEq ?_ (by rw [ec]; field_simp; ring)
      filter_upwards [Ioo_mem_nhdsGT h2] with y hy using e2 y hy.1 hy.2.le

/-- **C174, full statement:** the function does not decrease. -/
def C174_full : Prop := ∀ a b c : ℝ, a < c → c < b → ∀ x y, x ≤ y → triangCdf a b c x ≤ triangCdf a b c y

theorem C174_counterexample : ¬ C174_full := by
  intro h
  have := h 0 2 1 (by norm_num) (by norm_num) 2 3 (by norm_num)
  unfold triangCdf at this
  norm_num at this

/-! ### Logarithms of sums and differences -/

/-- The logarithm of a number that is not negative. -/
noncomputable def lg (x : ℝ) : Dbl := if x = 0 then .ninf else .fin (Real.log x)

theorem log_fin {x : ℝ} (h : 0 ≤ x) : Dbl.log (.fin x) = lg x := by
  show (if x = 0 then Dbl.ninf else if 0 < x then Dbl.fin (Real.log x) else Dbl.nan) = _
  unfold lg
  by_cases hx : x = 0
  · rw [if_pos hx, if_pos hx]
  · rw [if_neg hx, if_neg hx, if_pos (lt_of_le_of_ne h (Ne.symm hx))]

theorem lg_pos {x : ℝ} (h : 0 < x) : lg x = .fin (Real.log x) := by unfold lg; rw [if_neg h.ne']

theorem lg_zero : lg 0 = .ninf := by unfold lg; rw [if_pos rfl]

theorem sumlog_pos {x y : ℝ} (hx : 0 < x) (hy : 0 ≤ y) :
    (lg x).add (Dbl.log ((Dbl.fin 1).add (Dbl.exp ((lg y).sub (lg x))))) = lg (x + y) := by
  rw [lg_pos hx]
  rcases eq_or_lt_of_le hy with h | h
  · subst h
    rw [lg_zero]
    show (Dbl.fin (Real.log x)).add (Dbl.log (.fin (1 + 0))) = _
    rw [add_zero, add_zero, log_fin zero_le_one, lg_pos one_pos, lg_pos hx, Real.log_one]
    show Dbl.fin _ = _
    rw [add_zero]
  · rw [lg_pos h]
    show (Dbl.fin (Real.log x)).add (Dbl.log (.fin (1 + Real.exp (Real.log y + -Real.log x)))) = _
    have e : Real.exp (Real.log y + -Real.log x) = y / x := by
      rw [← sub_eq_add_neg, Real.exp_sub, Real.exp_log h, Real.exp_log hx]
    have hp : 0 < 1 + y / x := by positivity
    rw [e, log_fin hp.le, lg_pos hp, lg_pos (by positivity)]
    show Dbl.fin _ = _
    rw [← Real.log_mul hx.ne' hp.ne']
    congr 2; field_simp

/-- **C175 (sums, partial).** For two numbers that are not negative and not both zero, the result is the logarithm of their sum (minus infinity
stands for the logarithm of zero). Missing: if both are zero the result is not a number. -/
theorem C175_sum_partial (x y : ℝ) (hx : 0 ≤ x) (hy : 0 ≤ y) (h : 0 < x + y) :
    lnsSumlog (lg x) (lg y) = lg (x + y) ∧ lnsSum (.fin x) (.fin y) = lg (x + y) := by
  have key : lnsSumlog (lg x) (lg y) = lg (x + y) := by
    unfold lnsSumlog
    split
    · rename_i hg
      have hxp : 0 < x := by
        rcases eq_or_lt_of_le hx with h0 | h0
        · rw [← h0, lg_zero] at hg; exact absurd hg (by cases lg y <;> simp [Dbl.gt])
        · exact h0
      exact sumlog_pos hxp hy
    · rename_i hg
      have hyp : 0 < y := by
        rcases eq_or_lt_of_le hy with h0 | h0
        · exfalso; apply hg
          have hxp : 0 < x := by rw [← h0, add_zero] at h; exact h
          rw [← h0, lg_zero, lg_pos hxp]; trivial
        · exact h0
      rw [sumlog_pos hyp hx, add_comm]
  exact ⟨key, by unfold lnsSum; rw [log_fin hx, log_fin hy]; exact key⟩

/-- **C175, full statement for sums:** also for two zeros. -/
def C175_full : Prop := ∀ x y : ℝ, 0 ≤ x → 0 ≤ y → lnsSum (.fin x) (.fin y) = lg (x + y)

theorem C175_counterexample : ¬ C175_full := by
  intro h
  have := h 0 0 le_rfl le_rfl
  unfold lnsSum lnsSumlog at this
  rw [log_fin le_rfl, lg_zero, add_zero, lg_zero] at this
  rw [if_neg (by simp [Dbl.gt])] at this
  simp [Dbl.sub, Dbl.neg, Dbl.add, Dbl.exp, Dbl.log] at this

/-- **C175 (differences).** For `0≤y≤x` and `x>0` the result is the logarithm of `x-y`; for `0<x<y` it is not a number. -/
theorem C175_sub (x y : ℝ) (hx : 0 < x) (hy : 0 ≤ y) :
    (y ≤ x → lnsSublog (lg x) (lg y) = lg (x - y) ∧ lnsSub (.fin x) (.fin y) = lg (x - y)) ∧
    (x < y → lnsSub (.fin x) (.fin y) = .nan) := by
  have hs : lnsSub (.fin x) (.fin y) = lnsSublog (lg x) (lg y) := by unfold lnsSub; rw [log_fin hx.le, log_fin hy]
  have hstep : lnsSublog (lg x) (lg y) = (Dbl.fin (Real.log x)).add (Dbl.log (.fin (1 - y / x))) := by
    unfold lnsSublog
    rw [lg_pos hx]
    rcases eq_or_lt_of_le hy with h | h
    · subst h; rw [lg_zero]
      show (Dbl.fin (Real.log x)).add (Dbl.log (.fin (1 + -0))) = _
      simp
    · rw [lg_pos h]
      show (Dbl.fin (Real.log x)).add (Dbl.log (.fin (1 + -Real.exp (Real.log y + -Real.log x)))) = _
      rw [← sub_eq_add_neg (Real.log y), Real.exp_sub, Real.exp_log h, Real.exp_log hx, ← sub_eq_add_neg]
  refine ⟨fun hle => ?_, fun hlt => ?_⟩
  · have : lnsSublog (lg x) (lg y) = lg (x - y) := by
      rw [hstep]
      rcases eq_or_lt_of_le hle with h | h
      · subst h
        rw [div_self hx.ne', sub_self, log_fin le_rfl, lg_zero, sub_self, lg_zero]; rfl
      · have hp : 0 < 1 - y / x := by rw [sub_pos, div_lt_one hx]; exact h
        rw [log_fin hp.le, lg_pos hp, lg_pos (by linarith)]
        show Dbl.fin _ = _
        rw [← Real.log_mul hx.ne' hp.ne']
        congr 2; field_simp
    exact ⟨this, by rw [hs]; exact this⟩
  · rw [hs, hstep]
    have hn : 1 - y / x < 0 := by rw [sub_neg, one_lt_div hx]; exact hlt
    unfold Dbl.log
    simp only
    rw [if_neg hn.ne, if_neg (not_lt.2 hn.le)]; rfl

end Thot.MathFuncs
