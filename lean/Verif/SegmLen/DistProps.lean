import Verif.SegmLen.Dist
import Verif.MathFuncs.Props
import Verif.SentHandler.Props
/-! C178–C180: lengths of the source segments, jumps, lengths of the target segments. -/
namespace Thot.SegmLen

open Thot.Awk (Str)
open Thot.SentHandler (Word Line text joinWords)

theorem hit_pos : 0 < hit := by unfold hit; norm_num
theorem hit_lt : hit < 1 := by unfold hit; norm_num

theorem exp_geom (n : ℕ) : Real.exp (Real.log hit + (n : ℝ) * Real.log (1 - hit)) = hit * (1 - hit) ^ n :=
  MathFuncs.geom_eq hit n hit_pos hit_lt

/-- The mode named in a file: the one of its first word, and the previous one if the word is another one or there is no such file. -/
def namedSrc (m : SrcMode) : Option (List Str) → SrcMode
  | some (w :: _) => if w = "Uniform".toList then .uniform else if w = "Geometric".toList then .geom else m
  | _ => m

/-- **C178 (partial).** `load` selects the uniform or the geometric model by the first word of the file. In the uniform model, for `x_km1<srcLen`, each of the
ends `x_km1+1..srcLen` has probability `1/(srcLen-x_km1)`, so that they add up to 1. In the geometric model a segment of `n` words has probability `0.9·0.1^n`:
longer segments are less probable, and the sum over all lengths is 1 only if the length 0 is counted. Missing: the geometric model is not a distribution over the lengths from 1 on. -/
theorem C178_src_partial :
    (∀ (m : SrcMode) (ws : List Str) (rest : Str), (∀ w ∈ ws, Word w) →
      srcLoad m (some (joinWords ws ++ '\n' :: rest)) = (false, namedSrc m (some ws))) ∧
    (∀ m, srcLoad m none = (true, m)) ∧
    (∀ x_km1 srcLen, x_km1 < srcLen →
      (∀ x_k, Real.exp (srcLgProb .uniform x_k x_km1 srcLen) = 1 / ((srcLen : ℝ) - x_km1)) ∧
      ∑ x_k ∈ Finset.Ioc x_km1 srcLen, Real.exp (srcLgProb .uniform x_k x_km1 srcLen) = 1) ∧
    (∀ x_km1 srcLen n, Real.exp (srcLgProb .geom (x_km1 + n) x_km1 srcLen) = 9 / 10 * (1 / 10) ^ n) ∧
    ∀ x_km1 srcLen, HasSum (fun n => Real.exp (srcLgProb .geom (x_km1 + n) x_km1 srcLen)) 1 := by
  have hg : ∀ x_km1 srcLen n, Real.exp (srcLgProb .geom (x_km1 + n) x_km1 srcLen) = 9 / 10 * (1 / 10) ^ n := by
    intro a b n
    show Real.exp (Real.log hit + ((a + n - a : ℕ) : ℝ) * Real.log (1 - hit)) = _
    rw [Nat.add_sub_cancel_left, exp_geom]
    unfold hit; norm_num
  refine ⟨?_, fun _ => rfl, ?_, hg, ?_⟩
  · intro m ws rest hw
    have hl : Awk.getln (joinWords ws ++ '\n' :: rest) = some (joinWords ws, rest) := Awk.getln_nl _ _ (SentHandler.line_join hw)
    have hd := (Awk.C41_dollar ' ' (joinWords ws)).2 0
    rw [SentHandler.fields_join hw] at hd
    simp only [srcLoad, hl, hd]
    cases ws with
    | nil => rfl
    | cons w ws =>
      show (false, srcModeOf m w) = (false, _)
      simp only [srcModeOf, namedSrc]
      by_cases h1 : w = "Uniform".toList
      · rw [if_pos h1, if_neg (by rw [h1]; decide), if_pos h1]
      · rw [if_neg h1, if_neg h1]
  · intro a b hab
    have hp : (0 : ℝ) < (b : ℝ) - a := by rw [sub_pos]; exact_mod_cast hab
    have he : ∀ x_k, Real.exp (srcLgProb .uniform x_k a b) = 1 / ((b : ℝ) - a) := by
      intro x
      show Real.exp (srcUniform a b) = _
      unfold srcUniform
      rw [if_pos (by omega), Real.log_one, zero_sub, Real.exp_neg, Real.exp_log hp, one_div]
    refine ⟨he, ?_⟩
    rw [Finset.sum_congr rfl fun x _ => he x, Finset.sum_const, Nat.card_Ioc, nsmul_eq_mul, Nat.cast_sub hab.le]
    field_simp
  · intro a b
    have h := MathFuncs.C173_geom hit hit_pos hit_lt
    refine (funext fun n => ?_ : (fun n => Real.exp (srcLgProb .geom (a + n) a b)) = fun n => MathFuncs.geom hit n) ▸ h.2.1
    rw [hg, h.1]; unfold hit; norm_num

/-- **C178, full statement of the geometric part:** the probabilities of the lengths from 1 on add up to 1. -/
def C178_full : Prop := ∀ x_km1 srcLen, HasSum (fun n => Real.exp (srcLgProb .geom (x_km1 + (n + 1)) x_km1 srcLen)) 1

theorem C178_counterexample : ¬ C178_full := by
  intro h
  have h1 := h 0 0
  have h2 := C178_src_partial.2.2.2.2 0 0
  have h3 := (hasSum_nat_add_iff (f := fun n => Real.exp (srcLgProb .geom (0 + n) 0 0)) 1).1 h1
  have h4 := h2.unique h3
  rw [Finset.sum_range_one, C178_src_partial.2.2.2.1] at h4
  norm_num at h4

/-- **C179 (partial).** After loading a file whose first word is the number `p`, with `0<p<1`, a jump of `d` positions, forwards or backwards, has
probability `p(1-p)^|d|`: it is symmetric, longer jumps are less probable, and the probabilities of the jumps forwards (including staying) add up to 1. Without a file
`p` is 0.999. Missing: over the jumps in both directions the sum is `2-p`, not 1. -/
theorem C179_jumps_partial (atof : Str → ℝ) (c : Cuts) (w : Str) (ws : List Str) (rest : Str) (hw : ∀ x ∈ w :: ws, Word x) (h0 : 0 < atof w) (h1 : atof w < 1) :
    ∃ c', cutsLoad atof c (some (joinWords (w :: ws) ++ '\n' :: rest)) = (false, c') ∧
      (∀ d : ℤ, Real.exp (cutsLgProb c' d) = atof w * (1 - atof w) ^ d.natAbs) ∧
      (∀ d : ℤ, cutsLgProb c' (-d) = cutsLgProb c' d) ∧
      (∀ d e : ℤ, d.natAbs < e.natAbs → cutsLgProb c' e < cutsLgProb c' d) ∧
      HasSum (fun n : ℕ => Real.exp (cutsLgProb c' n)) 1 ∧ HasSum (fun d : ℤ => Real.exp (cutsLgProb c' d)) (2 - atof w) := by
  have hl : Awk.getln (joinWords (w :: ws) ++ '\n' :: rest) = some (joinWords (w :: ws), rest) := Awk.getln_nl _ _ (SentHandler.line_join hw)
  have hd := (Awk.C41_dollar ' ' (joinWords (w :: ws))).2 0
  rw [SentHandler.fields_join hw] at hd
  have hd1 : Awk.dollar ' ' (joinWords (w :: ws)) 1 = w := hd
  have he : ∀ d : ℤ, Real.exp (cutsLgProb ⟨1 - atof w, atof w⟩ d) = atof w * (1 - atof w) ^ d.natAbs := by
    intro d
    unfold cutsLgProb
    rw [Real.exp_add, Real.exp_nat_mul, Real.exp_log h0, Real.exp_log (by linarith), mul_comm]
  have hs : HasSum (fun n : ℕ => atof w * (1 - atof w) ^ n) 1 := by
    have h2 := (hasSum_geometric_of_lt_one (r := 1 - atof w) (by linarith) (by linarith)).mul_left (atof w)
    rwa [sub_sub_cancel, mul_inv_cancel₀ h0.ne'] at h2
  refine ⟨⟨1 - atof w, atof w⟩, ?_, he, ?_, ?_, ?_, ?_⟩
  · simp only [cutsLoad, hl, hd1]
  · intro d; unfold cutsLgProb; rw [Int.natAbs_neg]
  · intro d e hde
    unfold cutsLgProb
    have hn : Real.log (1 - atof w) < 0 := Real.log_neg (by linarith) (by linarith)
    have hc : (d.natAbs : ℝ) < e.natAbs := by exact_mod_cast hde
    have := mul_lt_mul_of_neg_right hc hn
    linarith
  · refine (funext fun n => ?_ : (fun n : ℕ => Real.exp (cutsLgProb ⟨1 - atof w, atof w⟩ (n : ℤ))) = fun n => atof w * (1 - atof w) ^ n) ▸ hs
    rw [he, Int.natAbs_natCast]
  · have hs1 : HasSum (fun n : ℕ => atof w * (1 - atof w) ^ (n + 1)) (1 - atof w) := by
      have := hs.mul_right (1 - atof w)
      rw [one_mul] at this
      refine (funext fun n => ?_ : (fun n : ℕ => atof w * (1 - atof w) ^ (n + 1)) = fun n => atof w * (1 - atof w) ^ n * (1 - atof w)) ▸ this
      ring
    have hz : HasSum (fun d : ℤ => atof w * (1 - atof w) ^ d.natAbs) (1 + (1 - atof w)) := by
      apply HasSum.of_nat_of_neg_add_one
      · simpa using hs
      · refine (funext fun n => ?_ : (fun n : ℕ => atof w * (1 - atof w) ^ (-((n : ℤ) + 1)).natAbs) = fun n => atof w * (1 - atof w) ^ (n + 1)) ▸ hs1
        rw [Int.natAbs_neg, show ((n : ℤ) + 1) = ((n + 1 : ℕ) : ℤ) by push_cast; rfl, Int.natAbs_natCast]
    rw [show (2 : ℝ) - atof w = 1 + (1 - atof w) by ring]
    exact (funext he : (fun d : ℤ => Real.exp (cutsLgProb ⟨1 - atof w, atof w⟩ d)) = _) ▸ hz

theorem C179_default (atof : Str → ℝ) (c : Cuts) : ∃ c', cutsLoad atof c none = (true, c') ∧
    ∀ d : ℤ, Real.exp (cutsLgProb c' d) = 999 / 1000 * (1 / 1000) ^ d.natAbs := by
  refine ⟨cutsDefault, rfl, fun d => ?_⟩
  unfold cutsLgProb cutsDefault
  rw [Real.exp_add, Real.exp_nat_mul, Real.exp_log (by norm_num), Real.exp_log (by norm_num)]
  norm_num [mul_comm]

/-- **C179, full statement:** the probabilities of all the jumps add up to 1. -/
def C179_full : Prop := ∀ (atof : Str → ℝ) (c c' : Cuts) (w rest : Str), Word w → 0 < atof w → atof w < 1 →
  cutsLoad atof c (some (joinWords [w] ++ '\n' :: rest)) = (false, c') → HasSum (fun d : ℤ => Real.exp (cutsLgProb c' d)) 1

theorem C179_counterexample : ¬ C179_full := by
  intro h
  have hw : Word "x".toList := by unfold Word; decide
  obtain ⟨c', h1, _, _, _, _, h2⟩ := C179_jumps_partial (fun _ => 1 / 2) cutsDefault "x".toList [] [] (by simpa using hw) (by norm_num) (by norm_num)
  have h3 := h (fun _ => 1 / 2) cutsDefault c' "x".toList [] hw (by norm_num) (by norm_num) h1
  have := h2.unique h3
  norm_num at this

/-! ### Lengths of the target segments -/

theorem nextGap_spec (left : ℕ) (prev : List (ℕ × ℕ)) (n : ℕ) :
    nextGap left prev n ≤ n ∧ (∀ s ∈ prev, left < s.1 → nextGap left prev n ≤ s.1) ∧
    (nextGap left prev n = n ∨ ∃ s ∈ prev, left < s.1 ∧ s.1 = nextGap left prev n ∧ s.1 < n) := by
  induction prev generalizing n with
  | nil => exact ⟨le_rfl, fun s hs => absurd hs (List.not_mem_nil), Or.inl rfl⟩
  | cons a prev ih =>
    have e : nextGap left (a :: prev) n = nextGap left prev (if a.1 > left ∧ n > a.1 then a.1 else n) := rfl
    rw [e]
    by_cases h : a.1 > left ∧ n > a.1
    · rw [if_pos h]
      obtain ⟨i1, i2, i3⟩ := ih a.1
      refine ⟨by omega, fun s hs hl => ?_, Or.inr ?_⟩
      · rcases List.mem_cons.1 hs with rfl | hs
        · exact i1
        · exact i2 s hs hl
      · rcases i3 with i3 | ⟨s, hs, h1, h2, h3⟩
        · exact ⟨a, List.mem_cons_self, h.1, i3.symm, h.2⟩
        · exact ⟨s, List.mem_cons_of_mem _ hs, h1, h2, by omega⟩
    · rw [if_neg h]
      obtain ⟨i1, i2, i3⟩ := ih n
      refine ⟨i1, fun s hs hl => ?_, ?_⟩
      · rcases List.mem_cons.1 hs with rfl | hs
        · omega
        · exact i2 s hs hl
      · rcases i3 with i3 | ⟨s, hs, h1, h2, h3⟩
        · exact Or.inl i3
        · exact Or.inr ⟨s, List.mem_cons_of_mem _ hs, h1, h2, h3⟩

/-- The positions where a segment that begins at `left` can end: up to the end of the sentence, without reaching the beginning of one of the previous segments. -/
def ends (prev : List (ℕ × ℕ)) (left trgLen : ℕ) : Finset ℕ := (Finset.Icc left trgLen).filter fun r => ∀ s ∈ prev, left < s.1 → r < s.1

/-- One of the previous segments is on the right of `left`. -/
def Blocked (prev : List (ℕ × ℕ)) (left trgLen : ℕ) : Prop := ∃ s ∈ prev, left < s.1 ∧ s.1 ≤ trgLen

open Classical in
/-- **C180 (uniform, partial).** For the `k`-th segment, which begins at `left≤trgLen`: if no previous segment begins on its right, each of the `N` positions
where it can end has probability `1/N`, so that they add up to 1; otherwise `1/(N+1)`. Missing: in the second case the probabilities do not add up to 1. -/
theorem C180_uniform_partial (t : TrgTab) (ht : t.mode = .uniform) (k : ℕ) (segm : List (ℕ × ℕ)) (s : ℕ × ℕ) (hs : segm[k]? = some s) (trgLen lastSrc : ℕ)
    (hl : s.1 ≤ trgLen) (hb : trgLen < 2 ^ 32 - 1) :
    ∃ p, trgLgProb t k segm trgLen lastSrc = some p ∧
      Real.exp p = 1 / (((ends (segm.take k) s.1 trgLen).card + if Blocked (segm.take k) s.1 trgLen then 1 else 0 : ℕ) : ℝ) ∧
      (¬ Blocked (segm.take k) s.1 trgLen → ∑ _ ∈ ends (segm.take k) s.1 trgLen, Real.exp p = 1) := by
  obtain ⟨g1, g2, g3⟩ := nextGap_spec s.1 (segm.take k) trgLen
  have hle : s.1 ≤ nextGap s.1 (segm.take k) trgLen := by
    rcases g3 with h | ⟨a, _, h1, h2, _⟩ <;> omega
  have hgl : gapLength (nextGap s.1 (segm.take k) trgLen) s.1 = nextGap s.1 (segm.take k) trgLen - s.1 + 1 := by
    unfold gapLength; omega
  have hcard : (ends (segm.take k) s.1 trgLen).card + (if Blocked (segm.take k) s.1 trgLen then 1 else 0) = nextGap s.1 (segm.take k) trgLen - s.1 + 1 := by
    by_cases hB : Blocked (segm.take k) s.1 trgLen
    · rw [if_pos hB]
      obtain ⟨b, hb1, hb2, hb3⟩ := hB
      have hlt : s.1 < nextGap s.1 (segm.take k) trgLen ∧ ∃ a ∈ segm.take k, s.1 < a.1 ∧ a.1 = nextGap s.1 (segm.take k) trgLen := by
        rcases g3 with h | ⟨a, h0, h1, h2, _⟩
        · have := g2 b hb1 hb2
          have : b.1 = trgLen := by omega
          exact ⟨by omega, b, hb1, hb2, by omega⟩
        · exact ⟨by omega, a, h0, h1, h2⟩
      have : ends (segm.take k) s.1 trgLen = Finset.Ico s.1 (nextGap s.1 (segm.take k) trgLen) := by
        ext r
        simp only [ends, Finset.mem_filter, Finset.mem_Icc, Finset.mem_Ico]
        constructor
        · rintro ⟨⟨h1, h2⟩, h3⟩
          obtain ⟨a, h0, h4, h5⟩ := hlt.2
          have := h3 a h0 h4
          omega
        · rintro ⟨h1, h2⟩
          refine ⟨⟨h1, by omega⟩, fun a h0 h3 => ?_⟩
          have := g2 a h0 h3
          omega
      rw [this, Nat.card_Ico]
    · rw [if_neg hB]
      have hn : nextGap s.1 (segm.take k) trgLen = trgLen := by
        rcases g3 with h | ⟨a, h0, h1, h2, h3⟩
        · exact h
        · exact absurd ⟨a, h0, h1, h3.le⟩ hB
      have : ends (segm.take k) s.1 trgLen = Finset.Icc s.1 trgLen := by
        ext r
        simp only [ends, Finset.mem_filter, Finset.mem_Icc]
        constructor
        · exact fun h => h.1
        · intro h
          refine ⟨h, fun a h0 h3 => ?_⟩
          by_contra h4
          exact hB ⟨a, h0, h3, by omega⟩
      rw [this, Nat.card_Icc, hn]; omega
  have hp : trgLgProb t k segm trgLen lastSrc = some (Real.log (1 / ((nextGap s.1 (segm.take k) trgLen - s.1 + 1 : ℕ) : ℝ))) := by
    unfold trgLgProb trgUniform
    rw [ht, hs]
    simp only [hgl]
  have hpos : (0 : ℝ) < 1 / ((nextGap s.1 (segm.take k) trgLen - s.1 + 1 : ℕ) : ℝ) := by positivity
  refine ⟨_, hp, by rw [Real.exp_log hpos, hcard], fun hB => ?_⟩
  rw [if_neg hB, add_zero] at hcard
  rw [Finset.sum_const, Real.exp_log hpos, hcard, nsmul_eq_mul]
  field_simp

/-- **C180, full statement for the uniform model:** the probabilities of the positions where the segment can end always add up to 1. -/
def C180_full : Prop := ∀ (t : TrgTab), t.mode = .uniform → ∀ (k : ℕ) (segm : List (ℕ × ℕ)) (s : ℕ × ℕ), segm[k]? = some s → ∀ (trgLen lastSrc : ℕ),
  s.1 ≤ trgLen → trgLen < 2 ^ 32 - 1 → ∃ p, trgLgProb t k segm trgLen lastSrc = some p ∧ ∑ _ ∈ ends (segm.take k) s.1 trgLen, Real.exp p = 1

/-- A previous segment at position 3 leaves the positions 1 and 2, which have a probability of `1/3` each. -/
theorem C180_counterexample : ¬ C180_full := by
  intro h
  obtain ⟨p, h1, h2⟩ := h trgInit rfl 1 [(3, 3), (1, 1)] (1, 1) rfl 3 0 (by decide) (by decide)
  obtain ⟨q, h3, h4, _⟩ := C180_uniform_partial trgInit rfl 1 [(3, 3), (1, 1)] (1, 1) rfl 3 0 (by decide) (by decide)
  rw [h1] at h3
  obtain rfl : p = q := by simpa using h3
  have hc : (ends ([(3, 3), (1, 1)].take 1) 1 3).card = 2 := by decide
  have hB : Blocked ([(3, 3), (1, 1)].take 1) 1 3 := ⟨(3, 3), by simp, by decide, by decide⟩
  rw [if_pos hB, hc] at h4
  rw [Finset.sum_const, hc, h4] at h2
  norm_num at h2

/-- **C180 (Poisson and geometric).** The Poisson model gives the `k`-th segment, of `n` words, the Poisson probability of `n` with mean `lastSrc` times the quotient of the
average lengths, so the lengths from 0 on add up to 1. The geometric model gives it `0.9·0.1^d`, where `d` is the difference between `n` and `lastSrc`. -/
theorem C180_poisson_geom (t : TrgTab) (k : ℕ) (segm : List (ℕ × ℕ)) (left n : ℕ) (hs : segm[k]? = some (left, left + n - 1)) (hn : 0 < n) (trgLen lastSrc : ℕ) :
    (t.mode = .poisson → 0 < t.avgTrg / t.avgSrc * lastSrc →
      ∃ p, trgLgProb t k segm trgLen lastSrc = some p ∧
        Real.exp p = Real.exp (-(t.avgTrg / t.avgSrc * lastSrc)) * (t.avgTrg / t.avgSrc * lastSrc) ^ n / (n.factorial : ℝ)) ∧
    (t.mode = .geom →
      ∃ p, trgLgProb t k segm trgLen lastSrc = some p ∧ Real.exp p = 9 / 10 * (1 / 10) ^ ((n : ℤ) - lastSrc).natAbs) := by
  have hlen : left + n - 1 + 1 - left = n := by omega
  constructor
  · intro ht hm
    refine ⟨MathFuncs.logPoisson n (t.avgTrg / t.avgSrc * lastSrc), ?_, ?_⟩
    · unfold trgLgProb trgPoisson
      rw [ht, hs]; simp only [hlen]
    · exact (MathFuncs.C173_poisson _ hm).1 n
  · intro ht
    refine ⟨Real.log hit + (lenDiff n lastSrc : ℝ) * Real.log (1 - hit), ?_, ?_⟩
    · unfold trgLgProb trgGeom
      rw [ht, hs]; simp only [hlen]
    · rw [exp_geom]
      have : lenDiff n lastSrc = ((n : ℤ) - lastSrc).natAbs := by unfold lenDiff; split <;> omega
      rw [this]; unfold hit; norm_num

/-- **C180 (loading).** The first word of the file selects the model. For the Poisson model the first two lines must have six words, and the last words are the average
lengths; otherwise an error is returned and the averages are equal. -/
theorem C180_load (atof : Str → ℝ) (t : TrgTab) :
    trgLoad atof t none = (true, t) ∧
    (∀ ws rest, (∀ w ∈ "Uniform".toList :: ws, Word w) →
      trgLoad atof t (some (joinWords ("Uniform".toList :: ws) ++ '\n' :: rest)) = (false, { t with mode := .uniform })) ∧
    (∀ ws rest, (∀ w ∈ "Geometric".toList :: ws, Word w) →
      trgLoad atof t (some (joinWords ("Geometric".toList :: ws) ++ '\n' :: rest)) = (false, { t with mode := .geom })) ∧
    (∀ a b c d x a' b' c' d' e' y rest, (∀ w ∈ ["Poisson".toList, a, b, c, d, x], Word w) → (∀ w ∈ [a', b', c', d', e', y], Word w) →
      trgLoad atof t (some (joinWords ["Poisson".toList, a, b, c, d, x] ++ '\n' :: (joinWords [a', b', c', d', e', y] ++ '\n' :: rest))) =
        (false, ⟨.poisson, atof x, atof y⟩)) ∧
    (∀ ws rest, (∀ w ∈ "Poisson".toList :: ws, Word w) → ws.length ≠ 5 →
      trgLoad atof t (some (joinWords ("Poisson".toList :: ws) ++ '\n' :: rest)) = (true, ⟨.poisson, 50, 50⟩)) := by
  have hl : ∀ ws rest, (∀ w ∈ ws, Word w) → Awk.getln (joinWords ws ++ '\n' :: rest) = some (joinWords ws, rest) :=
    fun ws rest hw => Awk.getln_nl _ _ (SentHandler.line_join hw)
  have hd : ∀ ws (n : ℕ), (∀ w ∈ ws, Word w) → Awk.dollar ' ' (joinWords ws) (n + 1) = ws[n]?.getD [] := fun ws n hw => by
    rw [(Awk.C41_dollar ' ' (joinWords ws)).2 n, SentHandler.fields_join hw]
  have hnf : ∀ ws, (∀ w ∈ ws, Word w) → Awk.getNF ' ' (joinWords ws) = ws.length := fun ws hw => by
    rw [Awk.C41_NF, SentHandler.fields_join hw]
  have h1 : ∀ w ws rest, (∀ x ∈ w :: ws, Word x) →
      trgLoad atof t (some (joinWords (w :: ws) ++ '\n' :: rest)) = trgLoadWord atof t (joinWords (w :: ws) ++ '\n' :: rest) w := by
    intro w ws rest hw
    have e : Awk.dollar ' ' (joinWords (w :: ws)) 1 = w := hd (w :: ws) 0 hw
    simp only [trgLoad, hl _ _ hw, e]
  refine ⟨rfl, ?_, ?_, ?_, ?_⟩
  · intro ws rest hw
    rw [h1 _ _ _ hw]
    unfold trgLoadWord
    rw [if_neg (by decide), if_neg (by decide), if_pos rfl]
  · intro ws rest hw
    rw [h1 _ _ _ hw]
    unfold trgLoadWord
    rw [if_neg (by decide), if_pos rfl]
  · intro a b c d x a' b' c' d' e' y rest hw hw'
    rw [h1 _ _ _ hw]
    unfold trgLoadWord readAvg
    rw [if_pos rfl, hl _ _ hw]
    simp only
    have e1 : Awk.getNF ' ' (joinWords ["Poisson".toList, a, b, c, d, x]) = 6 := hnf _ hw
    have e2 : Awk.getNF ' ' (joinWords [a', b', c', d', e', y]) = 6 := hnf _ hw'
    have e3 : Awk.dollar ' ' (joinWords ["Poisson".toList, a, b, c, d, x]) 6 = x := hd _ 5 hw
    have e4 : Awk.dollar ' ' (joinWords [a', b', c', d', e', y]) 6 = y := hd _ 5 hw'
    rw [if_pos e1, hl _ _ hw']
    simp only
    rw [if_pos e2, e3, e4]
    rfl
  · intro ws rest hw hn
    rw [h1 _ _ _ hw]
    unfold trgLoadWord readAvg
    rw [if_pos rfl, hl _ _ hw]
    simp only
    rw [if_neg (by rw [hnf _ hw, List.length_cons]; omega)]
    rfl

end Thot.SegmLen
