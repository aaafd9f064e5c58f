import Verif.MathFuncs.Props
import Verif.SwLi.LenProb
import Mathlib.Tactic.Ring
import Mathlib.Tactic.NormNum
/-!
C204, C205: interpolation of phrase and word models, temporary tables of scores, and weights of `PhrLocalSwLiTm`
(`/repo/src/stack_dec/PhrLocalSwLiTm.cc`, `_phrSwTransModel.h`, `_smtModel.h`, `DirectPhraseModelFeat.h`).
Numbers are exact; a logarithm is a real number or minus infinity.
-/
namespace Thot.SwLi.Interp
open Thot.MathFuncs

/-- Comparison `x<=log(PHRASE_PROB_SMOOTH)` with `PHRASE_PROB_SMOOTH` 1e-10. -/
def leSmooth : Dbl → Prop
  | .fin x => x ≤ Real.log (1 / 10 ^ 10)
  | .ninf => True
  | _ => False

/-- Product of a weight and a double that is not a NaN; only the cases that occur are modelled. -/
noncomputable def scale (w : ℝ) : Dbl → Dbl
  | .fin x => .fin (w * x)
  | .ninf => if w = 0 then .nan else if 0 < w then .ninf else .pinf
  | .pinf => if w = 0 then .nan else if 0 < w then .pinf else .ninf
  | .nan => .nan

open Classical in
/-- The two logarithms that are added. PhrLocalSwLiTm.cc:1312-1316. -/
noncomputable def sum1 (lam : ℝ) (lp : Dbl) : Dbl :=
  if leSmooth ((Dbl.log (.fin lam)).add lp) then .fin (-9999999) else (Dbl.log (.fin lam)).add lp

open Classical in
/-- PhrLocalSwLiTm.cc:1303-1321 `regularSmoothedPhrScore_s_t_`, 1366-1383 `regularSmoothedPhrScore_t_s_`; with weight 1,
DirectPhraseModelFeat.h:230-250 and InversePhraseModelFeat.h:210-230. `lp` is the logarithm given by the phrase model and `lq` that of
the word model. -/
noncomputable def score (w lam : ℝ) (lp lq : Dbl) : Dbl :=
  if lam = 1 then scale w lp
  else scale w (lnsSumlog (sum1 lam lp) ((Dbl.log (.fin (1 - lam))).add lq))

/-! ### Specification and proofs -/

theorem lg_mul {x y : ℝ} (hx : 0 ≤ x) (hy : 0 ≤ y) : (lg x).add (lg y) = lg (x * y) := by
  rcases eq_or_lt_of_le hx with h | h
  · subst h
    rw [zero_mul, lg_zero]
    rcases eq_or_lt_of_le hy with h2 | h2
    · subst h2; rw [lg_zero]; rfl
    · rw [lg_pos h2]; rfl
  · rcases eq_or_lt_of_le hy with h2 | h2
    · subst h2; rw [mul_zero, lg_zero, lg_pos h]; rfl
    · rw [lg_pos h, lg_pos h2, lg_pos (mul_pos h h2), Real.log_mul h.ne' h2.ne']; rfl

theorem leSmooth_lg {x : ℝ} (hx : 0 ≤ x) : leSmooth (lg x) ↔ x ≤ 1 / 10 ^ 10 := by
  rcases eq_or_lt_of_le hx with h | h
  · subst h; rw [lg_zero]; simp [leSmooth]
  · rw [lg_pos h]
    show Real.log x ≤ _ ↔ _
    exact Real.log_le_log_iff h (by positivity)

open Classical in
/-- The part of the phrase model in the interpolation: values up to 1e-10 become `exp(-9999999)`. -/
noncomputable def floored (x : ℝ) : ℝ := if x ≤ 1 / 10 ^ 10 then Real.exp (-9999999) else x

theorem floored_pos (x : ℝ) : 0 < floored x := by
  unfold floored
  split
  · exact Real.exp_pos _
  · rename_i h; exact lt_of_lt_of_le (by positivity) (not_le.1 h).le

/-- C204: with an interpolation weight below one, the score of a phrase pair is the weight times the logarithm of the linear interpolation
of the two probabilities, where a contribution of the phrase model up to 1e-10 counts as exp(-9999999); it is always a number, also when
both probabilities are zero. With an interpolation weight of one it is that of the phrase model. -/
theorem C204_interp (w lam p q : ℝ) (hl : 0 ≤ lam) (hp : 0 ≤ p) (hq : 0 ≤ q) :
    (lam < 1 → score w lam (lg p) (lg q) = .fin (w * Real.log (floored (lam * p) + (1 - lam) * q))) ∧
    (lam = 1 → 0 < p → score w lam (lg p) (lg q) = .fin (w * Real.log p)) := by
  refine ⟨fun h => ?_, fun h hp0 => ?_⟩
  · unfold score
    rw [if_neg h.ne]
    have e1 : sum1 lam (lg p) = lg (floored (lam * p)) := by
      unfold sum1
      rw [log_fin hl, lg_mul hl hp]
      unfold floored
      by_cases hs : lam * p ≤ 1 / 10 ^ 10
      · rw [if_pos ((leSmooth_lg (mul_nonneg hl hp)).2 hs), if_pos hs, lg_pos (Real.exp_pos _), Real.log_exp]
      · rw [if_neg (fun hh => hs ((leSmooth_lg (mul_nonneg hl hp)).1 hh)), if_neg hs]
    have hf := floored_pos (lam * p)
    have h1 : 0 ≤ (1 - lam) * q := mul_nonneg (by linarith) hq
    rw [e1, log_fin (by linarith), lg_mul (by linarith) hq, (C175_sum_partial _ _ hf.le h1 (by linarith)).1, lg_pos (by linarith)]
    rfl
  · unfold score
    rw [if_pos h, lg_pos hp0]
    rfl

/-- C204: with a nonnegative weight the score does not decrease when one of the two probabilities increases. -/
theorem C204_mono (w lam p q p' q' : ℝ) (hw : 0 ≤ w) (hl : 0 ≤ lam) (hl1 : lam < 1) (hp : 0 ≤ p) (hq : 0 ≤ q) (hpp : p ≤ p') (hqq : q ≤ q') :
    ∃ a b, score w lam (lg p) (lg q) = .fin a ∧ score w lam (lg p') (lg q') = .fin b ∧ a ≤ b := by
  refine ⟨_, _, (C204_interp w lam p q hl hp hq).1 hl1, (C204_interp w lam p' q' hl (hp.trans hpp) (hq.trans hqq)).1 hl1, ?_⟩
  refine mul_le_mul_of_nonneg_left (Real.log_le_log ?_ ?_) hw
  · have := floored_pos (lam * p)
    have : 0 ≤ (1 - lam) * q := mul_nonneg (by linarith) hq
    linarith [floored_pos (lam * p)]
  · refine add_le_add ?_ (mul_le_mul_of_nonneg_left hqq (by linarith))
    have h1 : lam * p ≤ lam * p' := mul_le_mul_of_nonneg_left hpp hl
    unfold floored
    split
    · split
      · exact le_refl _
      · rename_i h2
        have h3 : Real.exp (-9999999) ≤ 1 / 10 ^ 10 := by
          have h4 : (10 : ℝ) ^ 10 ≤ Real.exp 9999999 := by
            have h5 : (2 : ℝ) ≤ Real.exp 1 := by linarith [Real.add_one_le_exp (1 : ℝ)]
            calc (10 : ℝ) ^ 10 ≤ 2 ^ 34 := by norm_num
              _ ≤ Real.exp 1 ^ 34 := pow_le_pow_left₀ (by norm_num) h5 34
              _ = Real.exp 34 := by rw [← Real.exp_nat_mul]; norm_num
              _ ≤ Real.exp 9999999 := Real.exp_le_exp.2 (by norm_num)
          rw [Real.exp_neg, one_div]
          exact inv_anti₀ (by positivity) h4
        exact h3.trans (not_le.1 h2).le
    · split
      · rename_i h2 h3; linarith
      · exact h1

/-- A pair unknown to the two models gets a very low score, not minus infinity. -/
example : score 2 (1 / 2) (lg 0) (lg 0) = .fin (-19999998) := by
  rw [(C204_interp 2 (1 / 2) 0 0 (by norm_num) le_rfl le_rfl).1 (by norm_num)]
  congr 1
  have : floored (1 / 2 * 0) = Real.exp (-9999999) := by unfold floored; rw [if_pos (by norm_num)]
  rw [this]
  simp; norm_num

/-! ### Temporary tables of scores -/

section
variable {K V : Type} [DecidableEq K]

/-- `cSwmScoreVec[idx]`, `cnbestTransScore`, …: pairs of phrases and scores. -/
abbrev Table (K V : Type) := List (K × V)

/-- `find`. -/
def find (T : Table K V) (k : K) : Option V := (T.find? fun e => decide (e.1 = k)).map (·.2)

/-- _phrSwTransModel.h:341-359 `swLgProb`, 363-381 `invSwLgProb`; _phraseBasedTransModel.h:2592-2629 `nbestTransScoreCached`,
`nbestTransScoreLastCached`; 688-701. `f` is the function of the model. -/
def cached (f : K → V) (T : Table K V) (k : K) : Table K V × V :=
  match find T k with
  | some v => (T, v)
  | none => ((k, f k) :: T, f k)

/-- What happens to the model: a query, a change of the models (training), the start of a translation (`pre_trans_actions*`, which
calls `clearTempVars`: _phrSwTransModel.h:629-643). -/
inductive Op (K V : Type) where
  | query (k : K)
  | train (f : K → V)
  | start

/-- Answers to the queries. -/
def run : (K → V) → Table K V → List (Op K V) → List V
  | _, _, [] => []
  | f, T, .query k :: ops => (cached f T k).2 :: run f (cached f T k).1 ops
  | _, T, .train g :: ops => run g T ops
  | f, _, .start :: ops => run f [] ops

/-- Specification: each query is answered by the model as it is then. -/
def answers : (K → V) → List (Op K V) → List V
  | _, [] => []
  | f, .query k :: ops => f k :: answers f ops
  | _, .train g :: ops => answers g ops
  | f, .start :: ops => answers f ops

/-- After training, a translation starts before the next query. -/
def Fresh : Bool → List (Op K V) → Prop
  | _, [] => True
  | d, .query _ :: ops => d = false ∧ Fresh d ops
  | _, .train _ :: ops => Fresh true ops
  | _, .start :: ops => Fresh false ops

theorem cached_good (f : K → V) (T : Table K V) (h : ∀ e ∈ T, e.2 = f e.1) (k : K) :
    (cached f T k).2 = f k ∧ ∀ e ∈ (cached f T k).1, e.2 = f e.1 := by
  unfold cached
  split
  · rename_i v hv
    unfold find at hv
    simp only [Option.map_eq_some_iff] at hv
    obtain ⟨e, he, rfl⟩ := hv
    have h1 := List.find?_some he
    simp only [decide_eq_true_eq] at h1
    exact ⟨by rw [← h1]; exact h e (List.mem_of_find?_eq_some he), h⟩
  · refine ⟨rfl, ?_⟩
    intro e he
    rcases List.mem_cons.1 he with rfl | he
    · rfl
    · exact h e he

theorem run_gen : ∀ (ops : List (Op K V)) (f : K → V) (T : Table K V) (d : Bool), (d = false → ∀ e ∈ T, e.2 = f e.1) → Fresh d ops →
    run f T ops = answers f ops
  | [], _, _, _, _, _ => rfl
  | .query k :: ops, f, T, d, hT, hF => by
    obtain ⟨hd, hF⟩ := hF
    obtain ⟨h1, h2⟩ := cached_good f T (hT hd) k
    rw [run, answers, h1, run_gen ops f _ d (fun _ => h2) hF]
  | .train g :: ops, _, T, _, _, hF => run_gen ops g T true (fun h => by cases h) hF
  | .start :: ops, f, _, _, _, hF => run_gen ops f [] false (fun _ e he => by cases he) hF

/-- C204: in any history where a translation starts between a training and the next query, every query of a score is answered with the
value that the models give at that moment, although values are stored. -/
theorem C204_cache (f : K → V) (ops : List (Op K V)) (h : Fresh false ops) : run f [] ops = answers f ops :=
  run_gen ops f [] false (fun _ e he => by cases he) h

/-- The condition matters: without a start between, the stored value is given. -/
theorem C204_cache_condition (f g : K → V) (k : K) : run f [] [.query k, .train g, .query k] = [f k, f k] := by
  simp [run, cached, find]

example : Fresh false [.query 3, .query 3, .train (fun k : Nat => k + 1), .start, .query 3] ∧
    run (fun k : Nat => k * 2) [] [.query 3, .query 3, .train (fun k : Nat => k + 1), .start, .query 3] = [6, 6, 4] := by
  refine ⟨by simp [Fresh], by decide +kernel⟩

end

/-! ### Weights -/

/-- `smoothLlWeight` with `SMALL_LLWEIGHT` 1e-6 (a parameter `e`). _smtModel.h:208-222. -/
def smooth (e w : ℚ) : ℚ := if w ≤ e ∧ 0 ≤ w then e else if -e ≤ w ∧ w < 0 then -e else w

/-- The eight weights of the model. -/
structure Weights where
  wp : ℚ
  lm : ℚ
  tseg : ℚ
  sjump : ℚ
  sseg : ℚ
  pts : ℚ
  pst : ℚ
  len : ℚ

/-- `if(wVec.size()>i) weight=smoothLlWeight(wVec[i])`. -/
def setOne (e : ℚ) (v : List ℚ) (i : Nat) (old : ℚ) : ℚ := match v[i]? with | some w => smooth e w | none => old

/-- PhrLocalSwLiTm.cc:492-508 `setPmWeights`, `setWeights`. -/
def setWeights (e : ℚ) (W : Weights) (v : List ℚ) : Weights :=
  ⟨setOne e v 0 W.wp, setOne e v 1 W.lm, setOne e v 2 W.tseg, setOne e v 3 W.sjump, setOne e v 4 W.sseg, setOne e v 5 W.pts, setOne e v 6 W.pst,
    setOne e v (8 - 1) W.len⟩

/-- PhrLocalSwLiTm.cc:511-556 `getPmWeights`, `getWeights`. -/
def getWeights (W : Weights) : List (String × ℚ) :=
  [("wpw", W.wp), ("lmw", W.lm), ("tseglenw", W.tseg), ("sjumpw", W.sjump), ("sseglenw", W.sseg), ("ptsw", W.pts), ("pstw", W.pst), ("swlenliw", W.len)]

/-- Specification: the closest admissible weight: at least `e` away from zero, with the same sign. -/
def Closest (e w s : ℚ) : Prop :=
  (e ≤ |s| ∧ (0 ≤ w → 0 < s) ∧ (w < 0 → s < 0)) ∧ ∀ t : ℚ, e ≤ |t| → (0 ≤ w → 0 < t) → (w < 0 → t < 0) → |s - w| ≤ |t - w|

theorem smooth_closest {e : ℚ} (he : 0 < e) (w : ℚ) : Closest e w (smooth e w) := by
  unfold smooth Closest
  by_cases h1 : w ≤ e ∧ 0 ≤ w
  · rw [if_pos h1]
    refine ⟨⟨by rw [abs_of_pos he], fun _ => he, fun h => absurd h1.2 (not_le.2 h)⟩, ?_⟩
    intro t ht hp _
    rw [abs_of_pos (hp h1.2)] at ht
    rw [abs_of_nonneg (by linarith [h1.1]), abs_of_nonneg (by linarith [h1.1])]
    linarith
  · rw [if_neg h1]
    by_cases h2 : -e ≤ w ∧ w < 0
    · rw [if_pos h2]
      refine ⟨⟨by rw [abs_neg, abs_of_pos he], fun h => absurd h2.2 (not_lt.2 h), fun _ => by linarith⟩, ?_⟩
      intro t ht _ hn
      rw [abs_of_neg (hn h2.2)] at ht
      rw [abs_of_nonpos (by linarith [h2.1]), abs_of_nonpos (by linarith [h2.1])]
      linarith
    · rw [if_neg h2]
      have h3 : e < w ∨ w < -e := by
        rcases lt_or_ge w 0 with h | h
        · right; by_contra hc; exact h2 ⟨by linarith, h⟩
        · left; by_contra hc; exact h1 ⟨by linarith, h⟩
      refine ⟨⟨?_, ?_, fun h => h⟩, fun t _ _ _ => by rw [sub_self, abs_zero]; exact abs_nonneg _⟩
      · rcases h3 with h | h
        · rw [abs_of_pos (by linarith)]; linarith
        · rw [abs_of_neg (by linarith)]; linarith
      · intro h
        rcases h3 with h4 | h4
        · linarith
        · linarith

theorem smooth_fix {e w : ℚ} (h : e ≤ |w|) : smooth e w = w := by
  unfold smooth
  by_cases h1 : w ≤ e ∧ 0 ≤ w
  · rw [if_pos h1]
    rw [abs_of_nonneg h1.2] at h
    linarith [h1.1]
  · rw [if_neg h1]
    by_cases h2 : -e ≤ w ∧ w < 0
    · rw [if_pos h2]
      rw [abs_of_neg h2.2] at h
      linarith [h2.1]
    · rw [if_neg h2]

/-- C205: after setting weights from a list of any length, the `i`-th weight is, for the positions of the list, the closest admissible value
to the given one, and unchanged otherwise; what the list has beyond eight values is ignored. -/
theorem C205_set (e : ℚ) (he : 0 < e) (W : Weights) (v : List ℚ) :
    (getWeights (setWeights e W v)).map (·.1) = ["wpw", "lmw", "tseglenw", "sjumpw", "sseglenw", "ptsw", "pstw", "swlenliw"] ∧
    ∀ (i : Nat) (old new : ℚ), ((getWeights W).map (·.2))[i]? = some old → ((getWeights (setWeights e W v)).map (·.2))[i]? = some new →
      (∀ w, v[i]? = some w → Closest e w new) ∧ (v[i]? = none → new = old) := by
  refine ⟨rfl, ?_⟩
  have key : ∀ (i : Nat) (old : ℚ), (∀ w, v[i]? = some w → Closest e w (setOne e v i old)) ∧ (v[i]? = none → setOne e v i old = old) := by
    intro i old
    unfold setOne
    refine ⟨fun w hw => ?_, fun hn => ?_⟩
    · rw [hw]; exact smooth_closest he w
    · rw [hn]
  intro i old new h1 h2
  match i, h1, h2 with
  | 0, h1, h2 | 1, h1, h2 | 2, h1, h2 | 3, h1, h2 | 4, h1, h2 | 5, h1, h2 | 6, h1, h2 | 7, h1, h2 =>
    simp only [getWeights, setWeights, List.map_cons, List.map_nil, List.getElem?_cons_succ, List.getElem?_cons_zero, Option.some.injEq] at h1 h2
    subst h1; subst h2
    exact key _ _
  | i + 8, h1, h2 => simp [getWeights] at h1

/-- C205: setting the weights obtained from a model with admissible weights changes nothing, and sets those weights in any other model. -/
theorem C205_roundtrip (e : ℚ) (W W' : Weights) (h : ∀ w ∈ (getWeights W).map (·.2), e ≤ |w|) :
    setWeights e W' ((getWeights W).map (·.2)) = W := by
  simp only [getWeights, List.map_cons, List.map_nil, List.mem_cons, List.not_mem_nil, or_false, forall_eq_or_imp, forall_eq] at h
  obtain ⟨h1, h2, h3, h4, h5, h6, h7, h8⟩ := h
  simp only [setWeights, setOne, getWeights, List.map_cons, List.map_nil, List.getElem?_cons_succ, List.getElem?_cons_zero, smooth_fix, h1, h2, h3, h4, h5,
    h6, h7, h8]

/-- C205: the weights set by the program are admissible. -/
theorem C205_admissible (e : ℚ) (he : 0 < e) (W : Weights) (v : List ℚ) (hv : 8 ≤ v.length) :
    ∀ w ∈ (getWeights (setWeights e W v)).map (·.2), e ≤ |w| := by
  have key : ∀ (i : Nat) (old : ℚ), i < v.length → e ≤ |setOne e v i old| := by
    intro i old hi
    unfold setOne
    rw [List.getElem?_eq_getElem hi]
    exact (smooth_closest he _).1.1
  simp only [getWeights, setWeights, List.map_cons, List.map_nil, List.mem_cons, List.not_mem_nil, or_false, forall_eq_or_imp, forall_eq]
  exact ⟨key _ _ (by omega), key _ _ (by omega), key _ _ (by omega), key _ _ (by omega), key _ _ (by omega), key _ _ (by omega), key _ _ (by omega),
    key _ _ (by omega)⟩

example : getWeights (setWeights (1 / 10) ⟨1, 1, 1, 1, 1, 1, 1, 1⟩ [0, -1 / 20, 2]) =
    [("wpw", 1 / 10), ("lmw", -1 / 10), ("tseglenw", 2), ("sjumpw", 1), ("sseglenw", 1), ("ptsw", 1), ("pstw", 1), ("swlenliw", 1)] := by decide +kernel

/-! ### Range used in each mode -/

/-- State of the model: translation, translation with a reference of `n` words, translation with a prefix of `n` words. -/
inductive Mode where
  | trans
  | ref (n : Nat)
  | pref (n : Nat)

/-- The range of lengths. _phrSwTransModel.h:393-440 `sentLenScoreForPartialHyp`; `mx` is `MAX_SENTENCE_LENGTH_ALLOWED`. -/
def partRange (i : Len.Inp) (mx : Nat) : Mode → List (Nat × Nat) → Nat → Nat × Nat
  | .trans, gaps, tlen => ((Len.gapsRange i gaps).1 + tlen, (Len.gapsRange i gaps).2 + tlen)
  | .ref n, _, _ => (n, n)
  | .pref n, gaps, tlen => if tlen ≥ n then ((Len.gapsRange i gaps).1 + tlen, (Len.gapsRange i gaps).2 + tlen) else (n, mx)

/-- Lengths of the final translation that the mode allows. -/
def allowed (mx : Nat) : Mode → Nat → Prop
  | .trans, _ => True
  | .ref n, k => k = n
  | .pref n, k => n ≤ k ∧ k ≤ mx

/-- C203: in every mode the range used for an incomplete hypothesis contains the length of every complete translation that can be obtained from
it and that the mode allows. In translation with prefix, the phrases used for the last words of the prefix need not be translation options. -/
theorem C203_modes (i : Len.Inp) (hM : 0 < i.M) (mx : Nat) (m : Mode) (gaps : List (Nat × Nat)) (ns : List Nat) (tlen : Nat)
    (hlen : gaps.length = ns.length) (hg : ∀ g ∈ gaps, 1 ≤ g.1 ∧ g.1 ≤ g.2 ∧ g.2 ≤ i.J)
    (ha : (∀ n, m = .pref n → n ≤ tlen) → (∀ n, m ≠ .ref n) → ∀ p ∈ gaps.zip ns, Len.Ach i (p.1.1 - 1) (p.1.2 - 1) p.2)
    (hal : allowed mx m (tlen + ns.sum)) :
    (partRange i mx m gaps tlen).1 ≤ tlen + ns.sum ∧ tlen + ns.sum ≤ (partRange i mx m gaps tlen).2 := by
  cases m with
  | trans =>
    have h := Len.C202_gaps i hM gaps ns hlen hg (ha (fun _ hh => by cases hh) (fun _ hh => by cases hh))
    simp only [partRange]; omega
  | ref n =>
    simp only [allowed] at hal
    simp only [partRange]; omega
  | pref n =>
    simp only [allowed] at hal
    simp only [partRange]
    split
    · rename_i hh
      have h := Len.C202_gaps i hM gaps ns hlen hg (ha (fun k hk => by cases hk; exact hh) (fun _ hk => by cases hk))
      simp only; omega
    · exact hal

end Thot.SwLi.Interp
