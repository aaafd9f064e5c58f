import Verif.Online.Model
import Mathlib.Analysis.PSeries
import Mathlib.Analysis.SpecialFunctions.Pow.Real
/-! The learning rates of mini-batch training (C199), over the real numbers (the rounding of `float` is not modelled). -/
namespace Thot.Online

/-- PhrLocalSwLiTm.cc:944-971, the values of `learningRatePolicy`; any other value is as `fixed`. -/
inductive Policy where
  | fixed | liang | own | wer

/-- PhrLocalSwLiTm.cc:998-1006: `ops` is the sum of the edit distances between references and system translations of the
block and `words` the number of words of the references. -/
noncomputable def werRate (ops words : Nat) : ℝ :=
  let wer : ℝ := if words > 0 then (ops : ℝ) / words else 0
  let lr := wer - 0.2
  let lr := if lr > 0.999 then 0.999 else lr
  if lr < 0.001 then 0.001 else lr

/-- PhrLocalSwLiTm.cc:937-979 `calculateNewLearningRate`. -/
noncomputable def rate (pol : Policy) (step ops words : Nat) : ℝ :=
  match pol with
  | .fixed => 0.5
  | .liang => 1 / ((step : ℝ) + 2) ^ (0.75 : ℝ)
  | .own => 0.99 / (1 + (step : ℝ) / 0.75)
  | .wer => werRate ops words

theorem werRate_eq (ops words : Nat) : werRate ops words = max 0.001 (min 0.999 ((if words > 0 then (ops : ℝ) / words else 0) - 0.2)) := by
  unfold werRate
  simp only
  generalize ((if words > 0 then (ops : ℝ) / words else 0) - 0.2) = x
  by_cases h : x > 0.999
  · rw [if_pos h, min_eq_left h.le, if_neg (by norm_num), max_eq_right (by norm_num)]
  · rw [if_neg h, min_eq_right (not_lt.mp h)]
    by_cases h2 : x < 0.001
    · rw [if_pos h2, max_eq_left h2.le]
    · rw [if_neg h2, max_eq_right (not_lt.mp h2)]

/-- C199: every learning rate is strictly between 0 and 1, so that the warning is never given. -/
theorem C199_bounds (pol : Policy) (step ops words : Nat) : 0 < rate pol step ops words ∧ rate pol step ops words < 1 := by
  cases pol with
  | fixed => unfold rate; norm_num
  | liang =>
    unfold rate
    have h2 : (1 : ℝ) < (step : ℝ) + 2 := by have : (0 : ℝ) ≤ step := Nat.cast_nonneg _; linarith
    have h3 : (1 : ℝ) < ((step : ℝ) + 2) ^ (0.75 : ℝ) := Real.one_lt_rpow h2 (by norm_num)
    exact ⟨by positivity, by rw [div_lt_one (by linarith)]; exact h3⟩
  | own =>
    unfold rate
    have h : (0 : ℝ) ≤ (step : ℝ) / 0.75 := by positivity
    refine ⟨by positivity, ?_⟩
    simp only
    rw [div_lt_one (by linarith)]
    linarith
  | wer =>
    unfold rate
    simp only
    rw [werRate_eq]
    refine ⟨lt_max_of_lt_left (by norm_num), max_lt (by norm_num) (lt_of_le_of_lt (min_le_left _ _) (by norm_num))⟩

/-- C199: the learning rates that depend on the step decrease with it. -/
theorem C199_decreasing (s s' o w o' w' : Nat) (h : s < s') : rate .liang s' o' w' < rate .liang s o w ∧ rate .own s' o' w' < rate .own s o w := by
  have h1 : (s : ℝ) < s' := by exact_mod_cast h
  have h0 : (0 : ℝ) ≤ s := Nat.cast_nonneg _
  unfold rate
  constructor
  · have : ((s : ℝ) + 2) ^ (0.75 : ℝ) < ((s' : ℝ) + 2) ^ (0.75 : ℝ) := Real.rpow_lt_rpow (by linarith) (by linarith) (by norm_num)
    exact one_div_lt_one_div_of_lt (by positivity) this
  · refine div_lt_div_of_pos_left (by norm_num) (by positivity) ?_
    have : (s : ℝ) / 0.75 < (s' : ℝ) / 0.75 := by
      apply div_lt_div_of_pos_right h1 (by norm_num)
    linarith

/-- C199: with any number of words of the references, the error-based rate does not decrease with the number of errors, and
is the error rate minus 0.2 as long as that is between 0.001 and 0.999. -/
theorem C199_wer (step step' ops ops' words : Nat) :
    (ops ≤ ops' → rate .wer step ops words ≤ rate .wer step' ops' words) ∧
    (0 < words → 0.201 ≤ (ops : ℝ) / words → (ops : ℝ) / words ≤ 1.199 → rate .wer step ops words = (ops : ℝ) / words - 0.2) := by
  unfold rate
  simp only
  rw [werRate_eq, werRate_eq]
  constructor
  · intro h
    have h1 : (ops : ℝ) ≤ ops' := by exact_mod_cast h
    refine max_le_max le_rfl (min_le_min le_rfl (sub_le_sub_right ?_ _))
    split
    · exact div_le_div_of_nonneg_right h1 (Nat.cast_nonneg _)
    · exact le_rfl
  · intro hw ha hb
    rw [if_pos hw, min_eq_right (by norm_num at hb ⊢; linarith), max_eq_right (by norm_num at ha ⊢; linarith)]

/-- The conditions under which stochastic approximation converges: the steps add up to infinity, their squares do not. -/
def RobbinsMonro (f : Nat → ℝ) : Prop := ¬ Summable f ∧ Summable (fun k => f k ^ 2)

theorem liang_sum : ¬ Summable (fun k : Nat => 1 / ((k : ℝ) + 2) ^ (0.75 : ℝ)) := by
  intro h
  have h1 : Summable (fun k : Nat => 1 / (k : ℝ) ^ (0.75 : ℝ)) := by
    rw [← summable_nat_add_iff 2]
    simpa using h
  rw [Real.summable_one_div_nat_rpow] at h1
  norm_num at h1

theorem liang_sq : Summable (fun k : Nat => (1 / ((k : ℝ) + 2) ^ (0.75 : ℝ)) ^ 2) := by
  have h1 : Summable (fun k : Nat => 1 / (k : ℝ) ^ (1.5 : ℝ)) := by
    rw [Real.summable_one_div_nat_rpow]; norm_num
  rw [← summable_nat_add_iff 2] at h1
  refine h1.congr (fun k => ?_)
  rw [div_pow, one_pow, ← Real.rpow_natCast, ← Real.rpow_mul (by positivity)]
  norm_num

theorem own_eq (k : Nat) : (0.99 : ℝ) / (1 + (k : ℝ) / 0.75) = 0.7425 * (1 / ((k : ℝ) + 0.75)) := by
  have : (0 : ℝ) ≤ k := Nat.cast_nonneg _
  have h1 : (1 + (k : ℝ) / 0.75) ≠ 0 := by positivity
  have h2 : ((k : ℝ) + 0.75) ≠ 0 := by positivity
  rw [mul_one_div, div_eq_div_iff h1 h2]
  ring

theorem own_sum : ¬ Summable (fun k : Nat => (0.99 : ℝ) / (1 + (k : ℝ) / 0.75)) := by
  intro h
  have h1 : Summable (fun k : Nat => 1 / ((k + 1 : Nat) : ℝ)) := by
    refine Summable.of_nonneg_of_le (fun k => by positivity) (fun k => ?_) (h.mul_left 2)
    rw [own_eq]
    have : (0 : ℝ) ≤ k := Nat.cast_nonneg _
    have h3 : 1 / ((k + 1 : Nat) : ℝ) ≤ 1 / ((k : ℝ) + 0.75) := by
      apply one_div_le_one_div_of_le (by positivity)
      push_cast; linarith
    have h4 : 0 ≤ 1 / ((k : ℝ) + 0.75) := by positivity
    linarith
  rw [summable_nat_add_iff 1 (f := fun k : Nat => 1 / (k : ℝ))] at h1
  exact Real.not_summable_one_div_natCast h1

theorem own_sq : Summable (fun k : Nat => ((0.99 : ℝ) / (1 + (k : ℝ) / 0.75)) ^ 2) := by
  rw [← summable_nat_add_iff 1]
  have h1 : Summable (fun k : Nat => 1 / (k : ℝ) ^ 2) := Real.summable_one_div_nat_pow.mpr (by norm_num)
  rw [← summable_nat_add_iff 1] at h1
  refine Summable.of_nonneg_of_le (fun k => by positivity) (fun k => ?_) h1
  rw [own_eq, mul_pow, div_pow, one_pow]
  have : (0 : ℝ) ≤ k := Nat.cast_nonneg _
  have h3 : 1 / ((((k + 1 : Nat) : ℝ) + 0.75) ^ 2) ≤ 1 / ((k + 1 : Nat) : ℝ) ^ 2 := by
    apply one_div_le_one_div_of_le (by positivity)
    push_cast
    nlinarith
  have h4 : 0 ≤ 1 / (((k + 1 : Nat) : ℝ) + 0.75) ^ 2 := by positivity
  nlinarith

/-- C199: the rates of Liang and the program's own satisfy the conditions for the convergence of the stepwise training; the
fixed one does not. -/
theorem C199_robbins_monro (o w : Nat → Nat) :
    RobbinsMonro (fun k => rate .liang k (o k) (w k)) ∧ RobbinsMonro (fun k => rate .own k (o k) (w k)) ∧
    ¬ RobbinsMonro (fun k => rate .fixed k (o k) (w k)) := by
  refine ⟨⟨liang_sum, liang_sq⟩, ⟨own_sum, own_sq⟩, ?_⟩
  rintro ⟨-, h⟩
  have := h.tendsto_atTop_zero
  unfold rate at this
  simp only at this
  have h2 := tendsto_nhds_unique this tendsto_const_nhds
  norm_num at h2

/-- Three errors in five words: 0.4. -/
example : rate .wer 7 3 5 = 0.4 := by
  have h : ((3 : Nat) : ℝ) / (5 : Nat) = 0.6 := by norm_num
  have := (C199_wer 7 7 3 3 5).2 (by norm_num) (by rw [h]; norm_num) (by rw [h]; norm_num)
  rw [this, h]; norm_num

end Thot.Online
