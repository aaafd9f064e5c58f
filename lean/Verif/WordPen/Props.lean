import Verif.MathFuncs.Props
/-!
The word penalty model: `/repo/src/incr_models/WordPenaltyModel.cc`. Exact reals; the mode is always `USE_GEOM` and the parameter always
`DEFAULT_P_GEOM` (WordPenaltyModel.cc:33-39, :122-129; both members are protected and nothing else changes them), so the other two
distributions, which cannot be selected, are not modelled.
-/
namespace Thot.WordPen

open Thot.MathFuncs

/-- `DEFAULT_P_GEOM` (WordPenaltyModel.h:52). -/
noncomputable def pGeom : ℝ := 7 / 10

/-- `wordPenaltyScore` (WordPenaltyModel.cc:42-51, :115-118). -/
noncomputable def wordPenaltyScore (tlen : ℕ) : ℝ := logGeom pGeom tlen

/-- `sumWordPenaltyScore` (WordPenaltyModel.cc:54-61). -/
noncomputable def sumWordPenaltyScore (tlen : ℕ) : ℝ := logGeom pGeom tlen

theorem exp_score (n : ℕ) : Real.exp (wordPenaltyScore n) = 7 / 10 * (3 / 10) ^ n := by
  have := geom_eq pGeom n (by unfold pGeom; norm_num) (by unfold pGeom; norm_num)
  unfold geom at this
  unfold wordPenaltyScore
  rw [this]
  unfold pGeom
  norm_num

theorem tail (n : ℕ) : HasSum (fun k => Real.exp (wordPenaltyScore (n + k))) ((3 / 10 : ℝ) ^ n) := by
  have h := (hasSum_geometric_of_lt_one (r := (3 / 10 : ℝ)) (by norm_num) (by norm_num)).mul_left (7 / 10 * (3 / 10 : ℝ) ^ n)
  have e : 7 / 10 * (3 / 10 : ℝ) ^ n * (1 - 3 / 10)⁻¹ = (3 / 10 : ℝ) ^ n := by norm_num; ring
  rw [e] at h
  refine (funext fun k => ?_ : (fun k => Real.exp (wordPenaltyScore (n + k))) = _) ▸ h
  rw [exp_score, pow_add]
  ring

/-- The full claim (comments of WordPenaltyModel.h:66-69): the first function is the logarithm of the probability of a length, these
probabilities add up to one, and the second function is the logarithm of the probability of at least a length. -/
def C247_full : Prop := HasSum (fun n => Real.exp (wordPenaltyScore n)) 1 ∧
  ∀ n, HasSum (fun k => Real.exp (wordPenaltyScore (n + k))) (Real.exp (sumWordPenaltyScore n))

/-- The word penalty is a distribution over lengths that decreases with the length by the same factor, and the second function differs from
the logarithm of the tail by the same constant for all lengths. Missing: the constant is not zero (`C247_counterexample`). -/
theorem C247_word_penalty_partial : HasSum (fun n => Real.exp (wordPenaltyScore n)) 1 ∧
    (∀ n, wordPenaltyScore (n + 1) = wordPenaltyScore n + Real.log (3 / 10)) ∧
    ∀ n, ∃ t, HasSum (fun k => Real.exp (wordPenaltyScore (n + k))) t ∧ sumWordPenaltyScore n = Real.log t + Real.log (7 / 10) := by
  refine ⟨by simpa using tail 0, ?_, fun n => ⟨_, tail n, ?_⟩⟩
  · intro n
    unfold wordPenaltyScore logGeom pGeom
    push_cast
    norm_num
    ring
  · unfold sumWordPenaltyScore logGeom pGeom
    rw [Real.log_pow]
    norm_num
    ring

/-- The probability of at least 0 words would be 0.7. -/
theorem C247_counterexample : ¬ C247_full := by
  rintro ⟨h1, h2⟩
  have h3 := (h2 0).unique (tail 0)
  have h4 : Real.exp (sumWordPenaltyScore 0) = 7 / 10 * (3 / 10) ^ 0 := exp_score 0
  rw [h4] at h3
  norm_num at h3

/-- The contribution of the word penalty to the score of a hypothesis does not depend on the phrases: for any lengths of the target phrases,
the increments of a complete hypothesis (WordPenaltyFeat.cc:31-91) add up to the penalty of its length. -/
theorem C247_segmentation_partial (ls : List ℕ) :
    sumWordPenaltyScore 0 +
      ((List.range ls.length).map fun i =>
        sumWordPenaltyScore ((ls.take (i + 1)).sum) - sumWordPenaltyScore ((ls.take i).sum)).sum +
      (wordPenaltyScore ls.sum - sumWordPenaltyScore ls.sum) = wordPenaltyScore ls.sum := by
  have key : ∀ n ≤ ls.length, sumWordPenaltyScore 0 +
      ((List.range n).map fun i =>
        sumWordPenaltyScore ((ls.take (i + 1)).sum) - sumWordPenaltyScore ((ls.take i).sum)).sum = sumWordPenaltyScore ((ls.take n).sum) := by
    intro n
    induction n with
    | zero => intro _; simp
    | succ n ih =>
      intro h
      rw [List.range_succ, List.map_append, List.sum_append, ← add_assoc, ih (by omega)]
      simp
  rw [key ls.length le_rfl, List.take_length]
  ring

example : Real.exp (wordPenaltyScore 2) = 63 / 1000 := by rw [exp_score]; norm_num

end Thot.WordPen
