import Mathlib.Analysis.Real.Sqrt
import Mathlib.Tactic.Linarith
import Mathlib.Tactic.Ring
import Mathlib.Tactic.Positivity
import Verif.Common.AMap
import Verif.Vocab.Props
import Verif.Desc.Props
/-!
Model of the tools that clean a parallel corpus: `/repo/utils/smt_preproc/thot_clean_corpus_ln.py`, that prints the numbers of the lines
to be kept, and `/repo/utils/nlp_common/thot_extract_sents_by_ln.sh`, that extracts lines given their numbers.

Numbers are exact reals (floating-point in the code). A line is an element of any type; the number of words of a line is given by a
function (splitting is not modelled).
-/
namespace Thot.CorpusTools

open Thot
open Thot.Vocab (showNat)
open Thot.Desc (linesOf fld)

noncomputable section
open Classical

/-- `slen-tlen`. -/
def diff (p : Nat × Nat) : ℝ := (p.1 : ℝ) - (p.2 : ℝ)

/-- `compute_mean_stddev` (thot_clean_corpus_ln.py:24-38); the division by the length of an empty list is handled in `cleanLn`. -/
def meanStd (l : List (Nat × Nat)) : ℝ × ℝ :=
  let mean := l.foldl (fun acc p => acc + diff p) 0 / l.length
  (mean, Real.sqrt (l.foldl (fun acc p => acc + (diff p - mean) * (diff p - mean)) 0 / l.length))

/-- The first loop of `compute_mean_stddev_per_length` (thot_clean_corpus_ln.py:43-52): number of samples and sum of differences. -/
def perLen1 (l : List (Nat × Nat)) : List (Nat × ℝ) × List (Nat × ℝ) :=
  l.foldl (fun st p =>
    match AMap.lk st.1 p.1 with
    | none => (AMap.put st.1 p.1 1, AMap.put st.2 p.1 (diff p))
    | some c => (AMap.put st.1 p.1 (c + 1), AMap.put st.2 p.1 ((AMap.lk st.2 p.1).getD 0 + diff p))) ([], [])

/-- `mean_per_length` (thot_clean_corpus_ln.py:54-55). -/
def perLenMean (l : List (Nat × Nat)) (s : Nat) : ℝ := (AMap.lk (perLen1 l).2 s).getD 0 / (AMap.lk (perLen1 l).1 s).getD 0

/-- The second loop (thot_clean_corpus_ln.py:58-66). -/
def perLen2 (l : List (Nat × Nat)) : List (Nat × ℝ) :=
  l.foldl (fun st p =>
    match AMap.lk st p.1 with
    | none => AMap.put st p.1 ((diff p - perLenMean l p.1) * (diff p - perLenMean l p.1))
    | some c => AMap.put st p.1 (c + (diff p - perLenMean l p.1) * (diff p - perLenMean l p.1))) []

/-- `stddev_per_length` (thot_clean_corpus_ln.py:68-69). -/
def perLenStd (l : List (Nat × Nat)) (s : Nat) : ℝ := Real.sqrt ((AMap.lk (perLen2 l) s).getD 0 / (AMap.lk (perLen1 l).1 s).getD 0)

/-- The test of a line (thot_clean_corpus_ln.py:151-168). -/
def keepLine (mn mx d : Int) (l : List (Nat × Nat)) (p : Nat × Nat) : Bool :=
  if (p.1 : Int) ≥ mn ∧ (p.2 : Int) ≥ mn ∧ (p.1 : Int) ≤ mx ∧ (p.2 : Int) ≤ mx then
    let c := if (AMap.lk (perLen1 l).1 p.1).getD 0 ≥ 10 then (perLenMean l p.1, perLenStd l p.1) else meanStd l
    decide (diff p ≤ c.1 + (d : ℝ) * c.2 ∧ diff p ≥ c.1 - (d : ℝ) * c.2)
  else false

/-- `thot_clean_corpus_ln` (thot_clean_corpus_ln.py:124-172): the numbers printed for the lengths of the pairs of lines; `none` is the
`ZeroDivisionError` of an empty corpus. -/
def cleanLn (mn mx d : Int) (l : List (Nat × Nat)) : Option (List Nat) :=
  if l.length = 0 then none
  else some (((List.range l.length).filter fun k => keepLine mn mx d l (l.getD k (0, 0))).map (· + 1))

/-! ### Specification -/

/-- The lines whose source sentence has `s` words. -/
def group (l : List (Nat × Nat)) (s : Nat) : List (Nat × Nat) := l.filter fun p => decide (p.1 = s)

def avg (g : List (Nat × Nat)) : ℝ := (g.map diff).sum / g.length
def dev (g : List (Nat × Nat)) : ℝ := Real.sqrt ((g.map fun p => (diff p - avg g) ^ 2).sum / g.length)

/-- The lines a line is compared with: those with the same number of source words if there are at least ten, else all of them. -/
def peers (l : List (Nat × Nat)) (p : Nat × Nat) : List (Nat × Nat) := if 10 ≤ (group l p.1).length then group l p.1 else l

/-- Both lengths are allowed. -/
def InRange (mn mx : Int) (p : Nat × Nat) : Prop := mn ≤ p.1 ∧ mn ≤ p.2 ∧ (p.1 : Int) ≤ mx ∧ (p.2 : Int) ≤ mx

/-- The difference of lengths is within `d` standard deviations. -/
def Typical (d : Int) (l : List (Nat × Nat)) (p : Nat × Nat) : Prop := |diff p - avg (peers l p)| ≤ d * dev (peers l p)

/-! ### Proofs -/

theorem foldl_sum {A : Type} (f : A → ℝ) (l : List A) : ∀ a, l.foldl (fun acc p => acc + f p) a = a + (l.map f).sum := by
  induction l with
  | nil => intro a; simp
  | cons x l ih => intro a; rw [List.foldl_cons, ih, List.map_cons, List.sum_cons]; ring

theorem meanStd_eq (l : List (Nat × Nat)) : meanStd l = (avg l, dev l) := by
  unfold meanStd
  simp only [foldl_sum, zero_add]
  unfold avg dev avg
  simp only [pow_two]

theorem group_nil (s : Nat) : group [] s = [] := rfl

theorem group_snoc (l : List (Nat × Nat)) (p : Nat × Nat) (s : Nat) : group (l ++ [p]) s = if p.1 = s then group l s ++ [p] else group l s := by
  unfold group
  rw [List.filter_append]
  by_cases h : p.1 = s
  · rw [if_pos h]; simp [h]
  · rw [if_neg h]; simp [h]

theorem perLen1_spec (l : List (Nat × Nat)) (s : Nat) :
    AMap.lk (perLen1 l).1 s = (if group l s = [] then none else some ((group l s).length : ℝ)) ∧
    AMap.lk (perLen1 l).2 s = (if group l s = [] then none else some (((group l s).map diff).sum)) := by
  induction l using List.reverseRecOn generalizing s with
  | nil => simp [perLen1, group_nil, AMap.lk]
  | append_singleton l p ih =>
    have hstep : perLen1 (l ++ [p]) = match AMap.lk (perLen1 l).1 p.1 with
      | none => (AMap.put (perLen1 l).1 p.1 1, AMap.put (perLen1 l).2 p.1 (diff p))
      | some c => (AMap.put (perLen1 l).1 p.1 (c + 1), AMap.put (perLen1 l).2 p.1 ((AMap.lk (perLen1 l).2 p.1).getD 0 + diff p)) := by
      unfold perLen1; rw [List.foldl_append]; rfl
    rw [hstep, group_snoc]
    by_cases hg : group l p.1 = []
    · rw [(ih p.1).1, if_pos hg]
      simp only [AMap.lk_put]
      by_cases hs : s = p.1
      · subst hs; simp [hg]
      · rw [if_neg hs, if_neg hs, if_neg (show ¬ p.1 = s from fun e => hs e.symm)]; exact ih s
    · rw [(ih p.1).1, if_neg hg]
      simp only [AMap.lk_put]
      by_cases hs : s = p.1
      · subst hs
        rw [(ih p.1).2, if_neg hg]
        simp
      · rw [if_neg hs, if_neg hs, if_neg (show ¬ p.1 = s from fun e => hs e.symm)]; exact ih s

theorem perLenMean_eq (l : List (Nat × Nat)) (s : Nat) : perLenMean l s = avg (group l s) := by
  unfold perLenMean avg
  rw [(perLen1_spec l s).1, (perLen1_spec l s).2]
  by_cases hg : group l s = []
  · simp [hg]
  · rw [if_neg hg, if_neg hg]; rfl

theorem perLen2_spec (l : List (Nat × Nat)) (s : Nat) :
    (AMap.lk (perLen2 l) s).getD 0 = ((group l s).map fun p => (diff p - avg (group l s)) ^ 2).sum := by
  unfold perLen2
  have : ∀ (m : List (Nat × Nat)) (s : Nat), AMap.lk (m.foldl (fun st p =>
      match AMap.lk st p.1 with
      | none => AMap.put st p.1 ((diff p - perLenMean l p.1) * (diff p - perLenMean l p.1))
      | some c => AMap.put st p.1 (c + (diff p - perLenMean l p.1) * (diff p - perLenMean l p.1))) []) s =
      if group m s = [] then none else some (((group m s).map fun p => (diff p - perLenMean l s) * (diff p - perLenMean l s)).sum) := by
    intro m
    induction m using List.reverseRecOn with
    | nil => intro s; simp [group_nil, AMap.lk]
    | append_singleton m p ih =>
      intro s
      rw [List.foldl_append, group_snoc]
      generalize m.foldl (fun st p =>
        match AMap.lk st p.1 with
        | none => AMap.put st p.1 ((diff p - perLenMean l p.1) * (diff p - perLenMean l p.1))
        | some c => AMap.put st p.1 (c + (diff p - perLenMean l p.1) * (diff p - perLenMean l p.1))) [] = st at ih
      show AMap.lk (match AMap.lk st p.1 with
        | none => AMap.put st p.1 ((diff p - perLenMean l p.1) * (diff p - perLenMean l p.1))
        | some c => AMap.put st p.1 (c + (diff p - perLenMean l p.1) * (diff p - perLenMean l p.1))) s = _
      by_cases hg : group m p.1 = []
      · rw [ih p.1, if_pos hg]
        simp only [AMap.lk_put]
        by_cases hs : s = p.1
        · subst hs; simp [hg]
        · rw [if_neg hs, if_neg (show ¬ p.1 = s from fun e => hs e.symm)]; exact ih s
      · rw [ih p.1, if_neg hg]
        simp only [AMap.lk_put]
        by_cases hs : s = p.1
        · subst hs; simp
        · rw [if_neg hs, if_neg (show ¬ p.1 = s from fun e => hs e.symm)]; exact ih s
  rw [this, perLenMean_eq]
  by_cases hg : group l s = []
  · simp [hg]
  · rw [if_neg hg]; simp only [Option.getD_some, pow_two]

theorem perLenStd_eq (l : List (Nat × Nat)) (s : Nat) : perLenStd l s = dev (group l s) := by
  unfold perLenStd dev
  rw [perLen2_spec, (perLen1_spec l s).1]
  by_cases hg : group l s = []
  · simp [hg]
  · rw [if_neg hg]; rfl

theorem keepLine_iff (mn mx d : Int) (l : List (Nat × Nat)) (p : Nat × Nat) :
    keepLine mn mx d l p = true ↔ InRange mn mx p ∧ Typical d l p := by
  have hc : ((AMap.lk (perLen1 l).1 p.1).getD 0 ≥ 10) ↔ 10 ≤ (group l p.1).length := by
    rw [(perLen1_spec l p.1).1]
    by_cases hg : group l p.1 = []
    · simp [hg]
    · rw [if_neg hg]
      show ((group l p.1).length : ℝ) ≥ 10 ↔ _
      constructor
      · intro h; exact_mod_cast h
      · intro h; exact_mod_cast h
  have habs : ∀ a b c : ℝ, (a ≤ b + c ∧ a ≥ b - c) ↔ |a - b| ≤ c := by
    intro a b c
    rw [abs_le]
    constructor
    · rintro ⟨h1, h2⟩; constructor <;> linarith
    · rintro ⟨h1, h2⟩; constructor <;> linarith
  unfold keepLine
  by_cases hr : InRange mn mx p
  · rw [if_pos (show (p.1 : Int) ≥ mn ∧ (p.2 : Int) ≥ mn ∧ (p.1 : Int) ≤ mx ∧ (p.2 : Int) ≤ mx from hr)]
    simp only [decide_eq_true_eq, habs]
    unfold Typical peers
    by_cases hg : 10 ≤ (group l p.1).length
    · rw [if_pos (hc.2 hg), if_pos hg, perLenMean_eq, perLenStd_eq]; simp [hr]
    · rw [if_neg (fun h => hg (hc.1 h)), if_neg hg, meanStd_eq]; simp [hr]
  · rw [if_neg (show ¬ ((p.1 : Int) ≥ mn ∧ (p.2 : Int) ≥ mn ∧ (p.1 : Int) ≤ mx ∧ (p.2 : Int) ≤ mx) from hr)]
    simp [hr]

/-- The numbers printed are, in increasing order and without repetitions, those of the lines with allowed lengths and a typical
difference of lengths; an empty corpus gives an error. -/
theorem C236_kept (mn mx d : Int) (l : List (Nat × Nat)) :
    (l = [] → cleanLn mn mx d l = none) ∧
    (l ≠ [] → ∃ out, cleanLn mn mx d l = some out ∧ out.Pairwise (· < ·) ∧
      ∀ n, n ∈ out ↔ ∃ k p, n = k + 1 ∧ l[k]? = some p ∧ InRange mn mx p ∧ Typical d l p) := by
  constructor
  · rintro rfl; rfl
  · intro hl
    refine ⟨_, by unfold cleanLn; rw [if_neg (fun e => hl (List.length_eq_zero_iff.1 e))], ?_, ?_⟩
    · rw [List.pairwise_map]
      exact (List.pairwise_lt_range.filter _).imp fun h => Nat.succ_lt_succ h
    · intro n
      rw [List.mem_map]
      constructor
      · rintro ⟨k, hk, rfl⟩
        rw [List.mem_filter, List.mem_range] at hk
        refine ⟨k, l[k]'hk.1, rfl, List.getElem?_eq_getElem hk.1, ?_⟩
        have := (keepLine_iff mn mx d l _).1 hk.2
        rw [List.getD_eq_getElem?_getD, List.getElem?_eq_getElem hk.1] at this
        exact this
      · rintro ⟨k, p, rfl, hk, hp⟩
        have hlt : k < l.length := by
          by_contra hc
          rw [List.getElem?_eq_none (by omega)] at hk
          cases hk
        refine ⟨k, List.mem_filter.2 ⟨List.mem_range.2 hlt, ?_⟩, rfl⟩
        rw [List.getD_eq_getElem?_getD, hk]
        exact (keepLine_iff mn mx d l p).2 hp

/-! ### How many lines are dropped -/

theorem markov {A : Type} (f : A → ℝ) (hf : ∀ a, 0 ≤ f a) (c : ℝ) (P : A → Prop) [DecidablePred P] (l : List A) (hP : ∀ a ∈ l, P a → c ≤ f a) :
    ((l.filter fun a => decide (P a)).length : ℝ) * c ≤ (l.map f).sum := by
  induction l with
  | nil => simp
  | cons a l ih =>
    have := ih fun x hx => hP x (List.mem_cons_of_mem _ hx)
    rw [List.map_cons, List.sum_cons]
    by_cases h : P a
    · have h1 := hP a List.mem_cons_self h
      rw [List.filter_cons_of_pos (by simpa using h), List.length_cons]
      push_cast
      linarith
    · rw [List.filter_cons_of_neg (by simpa using h)]
      have := hf a
      linarith

/-- Chebyshev's inequality for a list of lines. -/
theorem chebyshev (g : List (Nat × Nat)) (d : Int) (hd : 0 ≤ d) (P : Nat × Nat → Prop) [DecidablePred P] (hP : ∀ p ∈ g, P p → ¬ |diff p - avg g| ≤ d * dev g) :
    ((g.filter fun p => decide (P p)).length : ℝ) * (d : ℝ) ^ 2 ≤ g.length := by
  by_cases hg : g = []
  · subst hg; simp
  have hn : (0 : ℝ) < g.length := by
    have : 0 < g.length := List.length_pos_iff.2 hg
    exact_mod_cast this
  have hd' : (0 : ℝ) ≤ d := by exact_mod_cast hd
  have hS : ∀ a : Nat × Nat, 0 ≤ (diff a - avg g) ^ 2 := fun a => sq_nonneg _
  have hsum0 : 0 ≤ (g.map fun p => (diff p - avg g) ^ 2).sum := by
    apply List.sum_nonneg
    intro x hx
    obtain ⟨a, _, rfl⟩ := List.mem_map.1 hx
    exact hS a
  have hvar : dev g ^ 2 = (g.map fun p => (diff p - avg g) ^ 2).sum / g.length := by
    unfold dev
    exact Real.sq_sqrt (div_nonneg hsum0 hn.le)
  have hdev : 0 ≤ dev g := Real.sqrt_nonneg _
  have hsum : (g.map fun p => (diff p - avg g) ^ 2).sum = g.length * dev g ^ 2 := by
    rw [hvar, mul_div_cancel₀ _ hn.ne']
  have hbad : ∀ p ∈ g, P p → (d * dev g) ^ 2 < (diff p - avg g) ^ 2 := by
    intro p hp hpp
    have h1 := not_le.1 (hP p hp hpp)
    have h2 : 0 ≤ (d : ℝ) * dev g := mul_nonneg hd' hdev
    rw [← sq_abs (diff p - avg g)]
    nlinarith
  rcases eq_or_lt_of_le hdev with h0 | hpos
  · -- all the differences are equal
    have hnone : ∀ p ∈ g, ¬ P p := by
      intro p hp hpp
      have h1 := hbad p hp hpp
      rw [← h0] at h1 hsum
      have h2 : (diff p - avg g) ^ 2 ≤ (g.map fun p => (diff p - avg g) ^ 2).sum := by
        apply List.single_le_sum
        · intro x hx
          obtain ⟨a, _, rfl⟩ := List.mem_map.1 hx
          exact hS a
        · exact List.mem_map.2 ⟨p, hp, rfl⟩
      rw [hsum] at h2
      simp at h1 h2
      exact absurd h2 (by
        have : 0 < (diff p - avg g) ^ 2 := by positivity
        intro h3
        rw [h3] at this
        simp at this)
    have : (g.filter fun p => decide (P p)) = [] := by
      rw [List.filter_eq_nil_iff]
      intro p hp
      simpa using hnone p hp
    rw [this]; simp
  · have h := markov (fun p => (diff p - avg g) ^ 2) hS ((d * dev g) ^ 2) P g fun p hp hpp => (hbad p hp hpp).le
    rw [hsum] at h
    have hp2 : 0 < dev g ^ 2 := by positivity
    have : ((g.filter fun p => decide (P p)).length : ℝ) * (d : ℝ) ^ 2 * dev g ^ 2 ≤ g.length * dev g ^ 2 := by
      calc _ = ((g.filter fun p => decide (P p)).length : ℝ) * ((d : ℝ) * dev g) ^ 2 := by ring
        _ ≤ _ := h
    exact le_of_mul_le_mul_right this hp2

/-- Few lines with allowed lengths are dropped: `d²` times the number of lines dropped with a given number `s` of source words is at most
the number of such lines, if they are at least ten; and `d²` times the number of lines dropped among those with an infrequent number of
source words is at most the number of lines. -/
theorem C236_dropped (d : Int) (hd : 0 ≤ d) (l : List (Nat × Nat)) :
    (∀ s, 10 ≤ (group l s).length →
      (((group l s).filter fun p => decide (¬ Typical d l p)).length : ℝ) * (d : ℝ) ^ 2 ≤ (group l s).length) ∧
    ((l.filter fun p => decide ((group l p.1).length < 10 ∧ ¬ Typical d l p)).length : ℝ) * (d : ℝ) ^ 2 ≤ l.length := by
  constructor
  · intro s hs
    apply chebyshev (group l s) d hd
    intro p hp hpp
    have hps : p.1 = s := by
      have := (List.mem_filter.1 hp).2
      simpa using this
    unfold Typical peers at hpp
    rw [hps, if_pos hs] at hpp
    exact hpp
  · apply chebyshev l d hd
    rintro p _ ⟨h1, h2⟩
    unfold Typical peers at h2
    rw [if_neg (by omega)] at h2
    exact h2

/-- Non-vacuity: a line whose difference is the mean is kept. -/
example : Typical 4 [(3, 2), (5, 4)] (3, 2) := by
  unfold Typical peers
  rw [if_neg (by decide)]
  have : diff (3, 2) - avg [(3, 2), (5, 4)] = 0 := by
    unfold avg diff; simp; norm_num
  rw [this, abs_zero]
  exact mul_nonneg (by norm_num) (Real.sqrt_nonneg _)

/-! ### Extraction of lines -/

/-- `thot_extract_sents_by_ln` (thot_extract_sents_by_ln.sh:54-77): `nums` is the text of the file with the numbers; the array index of a
line is the text of its number. -/
def extract {A : Type} (rev : Bool) (nums : List Char) (lines : List A) : List A :=
  (lines.zipIdx.filter fun p => decide (showNat (p.2 + 1) ∈ (linesOf nums).map fun ln => fld ln 1) != rev).map Prod.fst

/-- The text of a list of numbers, one per line. -/
def numText (l : List Nat) : List Char := (l.map showNat).flatMap fun w => w ++ ['\n']

theorem showNat_inj {a b : Nat} (h : showNat a = showNat b) : a = b := by
  have h1 := Vocab.atoiDigits_showNat a
  rw [h, Vocab.atoiDigits_showNat] at h1
  exact h1.symm

theorem nums_lines (l : List Nat) : (linesOf (numText l)).map (fun ln => fld ln 1) = l.map showNat := by
  have hw : ∀ n c, c ∈ showNat n → c ≠ ' ' ∧ c ≠ '\n' ∧ c ≠ '\x00' := by
    intro n c hc
    obtain ⟨m, rfl⟩ := Vocab.showNat_digits n c hc
    exact ⟨(Vocab.digit_dig m).2.2.1, (Vocab.digit_dig m).2.2.2.1, (Vocab.digit_dig m).2.2.2.2.1⟩
  unfold numText
  rw [Desc.linesOf_text]
  · rw [List.map_map]
    apply List.map_congr_left
    intro n _
    show fld (showNat n) 1 = showNat n
    have hf := SentHandler.fields_join (ws := [showNat n]) (by
      intro w hw'
      rw [List.mem_singleton] at hw'
      rw [hw']
      exact ⟨Vocab.showNat_ne_nil n, hw n⟩)
    rw [Desc.fld_eq]
    have hf' : Awk.fields ' ' (showNat n) = [showNat n] := hf
    rw [hf']; rfl
  · intro w hw' c hc
    obtain ⟨n, _, rfl⟩ := List.mem_map.1 hw'
    exact (hw n c hc).2

/-- The elements at the positions selected, counted from `i`. -/
def sel {A : Type} (f : Nat → Bool) : Nat → List A → List A
  | _, [] => []
  | i, a :: r => if f i then a :: sel f (i + 1) r else sel f (i + 1) r

theorem sel_zipIdx {A : Type} (f : Nat → Bool) (l : List A) : ∀ i, ((l.zipIdx i).filter fun p => f p.2).map Prod.fst = sel f i l := by
  induction l with
  | nil => intro i; rfl
  | cons a l ih =>
    intro i
    rw [List.zipIdx_cons]
    show _ = if f i then a :: sel f (i + 1) l else sel f (i + 1) l
    by_cases h : f i
    · rw [List.filter_cons_of_pos (by simpa using h), List.map_cons, ih, if_pos h]
    · rw [List.filter_cons_of_neg (by simpa using h), ih, if_neg h]

theorem extract_sel {A : Type} (rev : Bool) (nums : List Nat) (lines : List A) :
    extract rev (numText nums) lines = sel (fun k => decide (k + 1 ∈ nums) != rev) 0 lines := by
  unfold extract
  rw [nums_lines, ← sel_zipIdx]
  congr 1
  apply List.filter_congr
  intro p _
  congr 1
  apply decide_eq_decide.2
  rw [List.mem_map]
  constructor
  · rintro ⟨n, hn, he⟩
    rw [← showNat_inj he]; exact hn
  · intro h; exact ⟨_, h, rfl⟩

theorem sel_pairs {A B : Type} (keep : A × B → Bool) (f : Nat → Bool) : ∀ (src : List A) (trg : List B) (i : Nat),
    (∀ k p, (src.zip trg)[k]? = some p → f (i + k) = keep p) → (∀ k, (src.zip trg).length ≤ k → f (i + k) = false) →
    sel f i src = ((src.zip trg).filter keep).map Prod.fst ∧ sel f i trg = ((src.zip trg).filter keep).map Prod.snd := by
  have hfalse : ∀ {C : Type} (l : List C) (i : Nat), (∀ k, f (i + k) = false) → sel f i l = [] := by
    intro C l
    induction l with
    | nil => intro i _; rfl
    | cons a l ih =>
      intro i h
      show (if f i then a :: sel f (i + 1) l else sel f (i + 1) l) = []
      rw [if_neg (by rw [show f i = false from h 0]; simp), ih (i + 1) fun k => by rw [Nat.add_assoc]; exact h _]
  intro src
  induction src with
  | nil =>
    intro trg i _ h2
    refine ⟨rfl, ?_⟩
    rw [hfalse trg i fun k => h2 k (Nat.zero_le _)]; rfl
  | cons a src ih =>
    intro trg i h1 h2
    cases trg with
    | nil =>
      refine ⟨?_, rfl⟩
      rw [hfalse (a :: src) i fun k => h2 k (Nat.zero_le _)]; rfl
    | cons b trg =>
      obtain ⟨e1, e2⟩ := ih trg (i + 1) (fun k p hk => by
        have := h1 (k + 1) p (by simpa using hk)
        rw [← this]; congr 1; omega) (fun k hk => by
        have := h2 (k + 1) (by simp only [List.zip_cons_cons, List.length_cons]; omega)
        rw [← this]; congr 1; omega)
      have h0 : f i = keep (a, b) := h1 0 (a, b) (by simp)
      rw [List.zip_cons_cons]
      show (if f i then a :: sel f (i + 1) src else sel f (i + 1) src) = _ ∧ (if f i then b :: sel f (i + 1) trg else sel f (i + 1) trg) = _
      rw [h0, e1, e2]
      by_cases hk : keep (a, b)
      · rw [if_pos hk, if_pos hk, List.filter_cons_of_pos hk]; exact ⟨rfl, rfl⟩
      · rw [if_neg hk, if_neg hk, List.filter_cons_of_neg hk]; exact ⟨rfl, rfl⟩

/-- The numbers of the kept lines extracted from both files give parallel files: the pairs of lines kept, in order. Lines without a
counterpart in the other file are never extracted. -/
theorem C237_parallel {A B : Type} (wa : A → Nat) (wb : B → Nat) (mn mx d : Int) (src : List A) (trg : List B) (out : List Nat)
    (h : cleanLn mn mx d ((src.zip trg).map fun p => (wa p.1, wb p.2)) = some out) :
    let lens := (src.zip trg).map fun p => (wa p.1, wb p.2)
    let kept := (src.zip trg).filter fun p => decide (InRange mn mx (wa p.1, wb p.2) ∧ Typical d lens (wa p.1, wb p.2))
    extract false (numText out) src = kept.map Prod.fst ∧ extract false (numText out) trg = kept.map Prod.snd := by
  intro lens kept
  have hne : lens ≠ [] := by
    intro he
    have hn := (C236_kept mn mx d lens).1 he
    rw [show cleanLn mn mx d lens = some out from h] at hn
    exact absurd hn (by simp)
  obtain ⟨out', h1, _, h3⟩ := (C236_kept mn mx d lens).2 hne
  rw [show cleanLn mn mx d lens = some out from h] at h1
  injection h1 with h1
  subst h1
  rw [extract_sel, extract_sel]
  apply sel_pairs
  · intro k p hk
    have hl : lens[k]? = some (wa p.1, wb p.2) := by
      show ((src.zip trg).map fun p => (wa p.1, wb p.2))[k]? = _
      rw [List.getElem?_map, hk]; rfl
    rw [Nat.zero_add]
    simp only [Bool.bne_false]
    apply decide_eq_decide.2
    rw [h3]
    constructor
    · rintro ⟨k', p', hkk, hp', hr⟩
      have : k' = k := by omega
      subst this
      rw [hl] at hp'
      injection hp' with hp'
      subst hp'
      exact hr
    · intro hr; exact ⟨k, _, rfl, hl, hr⟩
  · intro k hk
    rw [Nat.zero_add]
    simp only [Bool.bne_false, decide_eq_false_iff_not]
    rw [h3]
    rintro ⟨k', p', hkk, hp', _⟩
    have : k' = k := by omega
    subst this
    rw [List.getElem?_eq_none (by show ((src.zip trg).map _).length ≤ k'; rw [List.length_map]; exact hk)] at hp'
    cases hp'

/-- The lines extracted and those extracted in reverse mode are together the lines of the file, each one once; and each of them is in the
order of the file. -/
theorem C237_reverse {A : Type} (nums : List Nat) (lines : List A) :
    (extract false (numText nums) lines ++ extract true (numText nums) lines).Perm lines ∧
    (∀ rev, (extract rev (numText nums) lines).Sublist lines) ∧
    (∀ rev, extract rev (numText nums) lines =
      ((List.range lines.length).filter fun k => decide (k + 1 ∈ nums) != rev).filterMap fun k => lines[k]?) := by
  refine ⟨?_, ?_, ?_⟩
  · rw [extract_sel, extract_sel]
    have : ∀ (l : List A) (i : Nat), (sel (fun k => decide (k + 1 ∈ nums) != false) i l ++ sel (fun k => decide (k + 1 ∈ nums) != true) i l).Perm l := by
      intro l
      induction l with
      | nil => intro i; exact List.Perm.nil
      | cons a l ih =>
        intro i
        show ((if _ then a :: sel _ (i + 1) l else sel _ (i + 1) l) ++ (if _ then a :: sel _ (i + 1) l else sel _ (i + 1) l)).Perm _
        by_cases h : i + 1 ∈ nums
        · rw [if_pos (by simpa using h), if_neg (by simpa using h), List.cons_append]
          exact (ih (i + 1)).cons a
        · rw [if_neg (by simpa using h), if_pos (by simpa using h)]
          exact List.perm_middle.trans ((ih (i + 1)).cons a)
    exact this lines 0
  · intro rev
    rw [extract_sel]
    have : ∀ (l : List A) (i : Nat), (sel (fun k => decide (k + 1 ∈ nums) != rev) i l).Sublist l := by
      intro l
      induction l with
      | nil => intro i; exact List.Sublist.slnil
      | cons a l ih =>
        intro i
        show (if _ then a :: sel _ (i + 1) l else sel _ (i + 1) l).Sublist _
        split
        · exact (ih (i + 1)).cons_cons a
        · exact (ih (i + 1)).cons a
    exact this lines 0
  · intro rev
    rw [extract_sel]
    have : ∀ (f : Nat → Bool) (l : List A) (i : Nat), sel f i l = ((List.range l.length).filter fun k => f (i + k)).filterMap fun k => l[k]? := by
      intro f l
      induction l with
      | nil => intro i; rfl
      | cons a l ih =>
        intro i
        show (if f i then a :: sel f (i + 1) l else sel f (i + 1) l) = _
        rw [List.length_cons, List.range_succ_eq_map, ih]
        have hr : ((List.map Nat.succ (List.range l.length)).filter fun k => f (i + k)).filterMap (fun k => (a :: l)[k]?) =
            ((List.range l.length).filter fun k => f (i + 1 + k)).filterMap fun k => l[k]? := by
          rw [List.filter_map, List.filterMap_map]
          congr 1
          apply List.filter_congr
          intro k _
          show f (i + (k + 1)) = f (i + 1 + k)
          congr 1; omega
        by_cases h : f i
        · rw [if_pos h, List.filter_cons_of_pos (by simpa using h), List.filterMap_cons, hr]; rfl
        · rw [if_neg h, List.filter_cons_of_neg (by simpa using h), hr]
    have := this (fun k => decide (k + 1 ∈ nums) != rev) lines 0
    simp only [Nat.zero_add] at this
    exact this

/-- Non-vacuity. -/
example : extract false (numText [1, 3]) ['a', 'b', 'c', 'd'] = ['a', 'c'] ∧ extract true (numText [1, 3]) ['a', 'b', 'c', 'd'] = ['b', 'd'] := by
  rw [extract_sel, extract_sel]
  simp [sel]

end
end Thot.CorpusTools
