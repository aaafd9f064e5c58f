import Mathlib.Algebra.Order.Field.Rat
import Mathlib.Algebra.Order.Field.Basic
import Mathlib.Tactic.Linarith
import Mathlib.Tactic.Ring
import Mathlib.Tactic.FieldSimp
import Mathlib.Tactic.Positivity
import Mathlib.Tactic.NormNum
import Verif.StrProc.Props
import Verif.Metrics.Ngram
/-!
Model of `stack_dec/chrf.{h,cc}` and `stack_dec/MiraChrF.cc`, and C117.

Simplifications: `float` and `double` are rational numbers, the counters `unsigned int` are natural numbers, a string is
a list of characters (bytes of the code).
-/
namespace Thot.Metrics

open Thot.StrProc (Str stringToStringVector stringVectorToString)

/-- The strings compared (chrf.cc:143-145), with `CONSIDER_WHITESPACE` true (chrf.h:40). -/
def chrNorm (s : Str) : Str := stringVectorToString (stringToStringVector s)

/-- `count_ngrams` (chrf.cc:180-259): precision and recall. -/
def countNgrams (n : Nat) (r s : Str) : Rat × Rat :=
  (if numGrams n s = 0 then 1 else ((min (countMatches n r s) (countMatches n s r) : Nat) : Rat) / numGrams n s,
   if numGrams n r = 0 then 1 else ((min (countMatches n r s) (countMatches n s r) : Nat) : Rat) / numGrams n r)

/-- The loop of `calculate_chrf` (chrf.cc:162-171): sums of precisions and recalls. -/
def chrLoop (r s : Str) : Rat × Rat :=
  (List.range' 1 (min 4 r.length)).foldl (fun a n => (a.1 + (countNgrams n r s).1, a.2 + (countNgrams n r s).2)) (0, 0)

/-- The final formula (chrf.cc:176-177), with `BETA` = 3. -/
def chrF (p r : Rat) : Rat := if p = 0 ∨ r = 0 then 0 else (1 + 3 * 3) * (p * r / (3 * 3 * p + r))

/-- `calculate_chrf` after the tokenization (chrf.cc:151-177). -/
def chrfOf (r s : Str) : Rat :=
  if r.length = 0 ∧ s.length = 0 then 1
  else if r.length = 0 ∨ s.length = 0 then 0
  else chrF ((chrLoop r s).1 / (min 4 s.length : Nat)) ((chrLoop r s).2 / (min 4 r.length : Nat))

/-- `calculate_chrf` (chrf.cc:133-178), `MiraChrF::sentScore` (MiraChrF.cc:42-47). -/
def chrf (ref sys : Str) : Rat := chrfOf (chrNorm ref) (chrNorm sys)

/-- `MiraChrF::sentBackgroundScore` (MiraChrF.cc:30-40). -/
def chrfBackground (cand ref : Str) : Rat := chrf ref cand * (stringToStringVector ref).length

/-- `MiraChrF::corpusScore` (MiraChrF.cc:49-61), for the list of references with their candidates; `none` is the result
of 0/0, not a number. The same computation is done on files by `calculate_chrf_file` (chrf.cc:88-120). -/
def chrfCorpus (l : List (Str × Str)) : Option Rat :=
  if l.length = 0 then none else some (l.foldl (fun a p => a + chrf p.1 p.2) 0 / l.length)

/-! ### Specification -/

/-- Sum of rational numbers over a list. -/
def qsum {β : Type} (f : β → Rat) (l : List β) : Rat := (l.map f).sum

/-- Precision of n-grams; 1 if there are no n-grams. -/
def chrPrec (n : Nat) (r s : Str) : Rat :=
  if (grams n s).length = 0 then 1 else (clipped (grams n s) (grams n r) : Rat) / (grams n s).length

/-- Recall of n-grams. -/
def chrRec (n : Nat) (r s : Str) : Rat := (clipped (grams n s) (grams n r) : Rat) / (grams n r).length

/-- Sum of the precisions for the lengths 1..4 that the reference has, divided by the number of lengths the system
translation has. -/
def chrP (r s : Str) : Rat := qsum (fun n => chrPrec n r s) (List.range' 1 (min 4 r.length)) / (min 4 s.length : Nat)

/-- Mean of the recalls for the lengths 1..4 that the reference has. -/
def chrR (r s : Str) : Rat := qsum (fun n => chrRec n r s) (List.range' 1 (min 4 r.length)) / (min 4 r.length : Nat)

/-! ### Proofs -/

theorem qsum_cons {β : Type} (f : β → Rat) (x : β) (l : List β) : qsum f (x :: l) = f x + qsum f l := by
  simp [qsum]
theorem qsum_nil {β : Type} (f : β → Rat) : qsum f [] = 0 := rfl

theorem qsum_nonneg {β : Type} {f : β → Rat} {l : List β} (h : ∀ x ∈ l, 0 ≤ f x) : 0 ≤ qsum f l := by
  induction l with
  | nil => exact le_refl _
  | cons x l ih =>
    rw [qsum_cons]
    have := h x List.mem_cons_self
    have := ih (fun y hy => h y (List.mem_cons_of_mem _ hy))
    linarith

theorem qsum_le {β : Type} {f g : β → Rat} {l : List β} (h : ∀ x ∈ l, f x ≤ g x) : qsum f l ≤ qsum g l := by
  induction l with
  | nil => exact le_refl _
  | cons x l ih =>
    rw [qsum_cons, qsum_cons]
    have := h x List.mem_cons_self
    have := ih (fun y hy => h y (List.mem_cons_of_mem _ hy))
    linarith

theorem qsum_one {β : Type} (l : List β) : qsum (fun _ => (1 : Rat)) l = l.length := by
  induction l with
  | nil => rfl
  | cons x l ih => rw [qsum_cons, ih]; push_cast [List.length_cons]; ring

/-- A sum of numbers at most 1 is the number of summands only when they all are 1. -/
theorem qsum_eq_length {β : Type} {f : β → Rat} {l : List β} (h : ∀ x ∈ l, f x ≤ 1) :
    qsum f l = l.length ↔ ∀ x ∈ l, f x = 1 := by
  induction l with
  | nil => simp [qsum_nil]
  | cons x l ih =>
    have hx := h x List.mem_cons_self
    have hl : ∀ y ∈ l, f y ≤ 1 := fun y hy => h y (List.mem_cons_of_mem _ hy)
    have hs : qsum f l ≤ l.length := by
      have := qsum_le hl
      rwa [qsum_one] at this
    rw [qsum_cons, List.length_cons]
    push_cast
    constructor
    · intro e
      have e1 : f x = 1 := by linarith
      have e2 := (ih hl).1 (by linarith)
      intro y hy
      rcases List.mem_cons.1 hy with rfl | hy
      · exact e1
      · exact e2 y hy
    · intro e
      rw [e x List.mem_cons_self, (ih hl).2 (fun y hy => e y (List.mem_cons_of_mem _ hy))]
      ring

theorem qsum_eq_zero {β : Type} {f : β → Rat} {l : List β} (h : ∀ x ∈ l, 0 ≤ f x) :
    qsum f l = 0 ↔ ∀ x ∈ l, f x = 0 := by
  induction l with
  | nil => simp [qsum_nil]
  | cons x l ih =>
    have hx := h x List.mem_cons_self
    have hl : ∀ y ∈ l, 0 ≤ f y := fun y hy => h y (List.mem_cons_of_mem _ hy)
    have hs := qsum_nonneg hl
    rw [qsum_cons]
    constructor
    · intro e
      have e1 : f x = 0 := by linarith
      have e2 := (ih hl).1 (by linarith)
      intro y hy
      rcases List.mem_cons.1 hy with rfl | hy
      · exact e1
      · exact e2 y hy
    · intro e
      rw [e x List.mem_cons_self, (ih hl).2 (fun y hy => e y (List.mem_cons_of_mem _ hy))]
      ring

theorem countNgrams_eq {n : Nat} {r s : Str} (hr : numGrams n r ≠ 0) :
    countNgrams n r s = (chrPrec n r s, chrRec n r s) := by
  have e : min (countMatches n r s) (countMatches n s r) = clipped (grams n s) (grams n r) := by
    rw [countMatches_clipped, countMatches_clipped, clipped_comm (grams n r), Nat.min_self]
  unfold countNgrams chrPrec chrRec
  rw [e, if_neg hr]
  simp only [length_grams]

theorem numGrams_pos {n : Nat} {s : List Char} (_h0 : 0 < n) : 0 < numGrams n s ↔ n ≤ s.length := by
  unfold numGrams
  split <;> omega

theorem mem_lens {r : Str} {n : Nat} : n ∈ List.range' 1 (min 4 r.length) ↔ 1 ≤ n ∧ n ≤ 4 ∧ n ≤ r.length := by
  rw [List.mem_range'_1]; omega

theorem chrLoop_eq (r s : Str) : chrLoop r s =
    (qsum (fun n => chrPrec n r s) (List.range' 1 (min 4 r.length)),
     qsum (fun n => chrRec n r s) (List.range' 1 (min 4 r.length))) := by
  have key : ∀ (l : List Nat) (a : Rat × Rat), (∀ n ∈ l, numGrams n r ≠ 0) →
      l.foldl (fun a n => (a.1 + (countNgrams n r s).1, a.2 + (countNgrams n r s).2)) a =
        (a.1 + qsum (fun n => chrPrec n r s) l, a.2 + qsum (fun n => chrRec n r s) l) := by
    intro l
    induction l with
    | nil => intro a _; simp [qsum_nil]
    | cons n l ih =>
      intro a h
      rw [List.foldl_cons, ih _ (fun m hm => h m (List.mem_cons_of_mem _ hm)),
        countNgrams_eq (h n List.mem_cons_self), qsum_cons, qsum_cons]
      simp only [add_assoc]
  unfold chrLoop
  rw [key _ _ (fun n hn => by
    have := mem_lens.1 hn
    have := (numGrams_pos (s := r) (by omega : 0 < n)).2 (by omega)
    omega)]
  simp

theorem chrfOf_eq {r s : Str} (hr : r ≠ []) (hs : s ≠ []) : chrfOf r s = chrF (chrP r s) (chrR r s) := by
  have h1 : r.length ≠ 0 := by simpa using hr
  have h2 : s.length ≠ 0 := by simpa using hs
  unfold chrfOf
  rw [if_neg (by omega), if_neg (by omega), chrLoop_eq]
  rfl

theorem rec_nonneg (n : Nat) (r s : Str) : 0 ≤ chrRec n r s := by unfold chrRec; positivity

theorem prec_nonneg (n : Nat) (r s : Str) : 0 ≤ chrPrec n r s := by
  unfold chrPrec
  split
  · exact zero_le_one
  · positivity

theorem rec_le_one (n : Nat) (r s : Str) : chrRec n r s ≤ 1 := by
  unfold chrRec
  apply div_le_one_of_le₀ _ (by positivity)
  have := clipped_le (grams n r) (grams n s)
  rw [clipped_comm] at this
  exact_mod_cast this

theorem prec_le_one (n : Nat) (r s : Str) : chrPrec n r s ≤ 1 := by
  unfold chrPrec
  split
  · exact le_refl _
  · apply div_le_one_of_le₀ _ (by positivity)
    exact_mod_cast clipped_le (grams n s) (grams n r)

theorem chrR_mem (r s : Str) : 0 ≤ chrR r s ∧ chrR r s ≤ 1 := by
  unfold chrR
  refine ⟨div_nonneg (qsum_nonneg fun n _ => rec_nonneg n r s) (by positivity), ?_⟩
  apply div_le_one_of_le₀ _ (by positivity)
  have := qsum_le (l := List.range' 1 (min 4 r.length)) (fun n _ => rec_le_one n r s)
  rw [qsum_one, List.length_range'] at this
  exact this

theorem chrP_nonneg (r s : Str) : 0 ≤ chrP r s := by
  unfold chrP
  exact div_nonneg (qsum_nonneg fun n _ => prec_nonneg n r s) (by positivity)

/-- When the precision exceeds 1, the translation is short and the recall is at most 3/4. -/
theorem chr_short {r s : Str} (h : 1 < chrP r s) : chrR r s ≤ 3 / 4 := by
  have hlt : min 4 s.length < min 4 r.length := by
    by_contra hc
    have : chrP r s ≤ 1 := by
      unfold chrP
      apply div_le_one_of_le₀ _ (by positivity)
      have a := qsum_le (l := List.range' 1 (min 4 r.length)) (fun n _ => prec_le_one n r s)
      rw [qsum_one, List.length_range'] at a
      have b : ((min 4 r.length : Nat) : Rat) ≤ (min 4 s.length : Nat) := by exact_mod_cast Nat.le_of_not_lt hc
      linarith
    linarith
  unfold chrR
  obtain ⟨m, hm⟩ : ∃ m, m = min 4 r.length := ⟨_, rfl⟩
  rw [← hm]
  have hm0 : 0 < m := by omega
  have hz : chrRec m r s = 0 := by
    unfold chrRec
    have : clipped (grams m s) (grams m r) = 0 := by
      have a := clipped_le (grams m s) (grams m r)
      rw [length_grams] at a
      have : numGrams m s = 0 := by unfold numGrams; rw [if_pos (by omega)]
      omega
    rw [this]; simp
  have hsum : qsum (fun n => chrRec n r s) (List.range' 1 m) ≤ (m : Rat) - 1 := by
    obtain ⟨k, rfl⟩ : ∃ k, m = k + 1 := ⟨m - 1, by omega⟩
    rw [List.range'_concat]
    have e : qsum (fun n => chrRec n r s) (List.range' 1 k ++ [1 + 1 * k]) =
        qsum (fun n => chrRec n r s) (List.range' 1 k) + chrRec (1 + 1 * k) r s := by
      simp [qsum]
    rw [e, show 1 + 1 * k = k + 1 from by omega, hz]
    have a := qsum_le (l := List.range' 1 k) (fun n _ => rec_le_one n r s)
    rw [qsum_one, List.length_range'] at a
    push_cast
    linarith
  have hm4 : (m : Rat) ≤ 4 := by exact_mod_cast (by omega : m ≤ 4)
  rw [div_le_iff₀ (by exact_mod_cast hm0)]
  linarith

theorem chrF_bounds {p r : Rat} (hp : 0 ≤ p) (hr : 0 ≤ r) (hr1 : r ≤ 1) (h : 1 < p → r ≤ 3 / 4) :
    0 ≤ chrF p r ∧ chrF p r ≤ 1 ∧ (chrF p r = 1 ↔ p = 1 ∧ r = 1) ∧ (chrF p r = 0 ↔ p = 0 ∨ r = 0) := by
  unfold chrF
  split
  · rename_i hz
    refine ⟨le_refl _, zero_le_one, ?_, by simp [hz]⟩
    constructor
    · intro e; exact absurd e (by norm_num)
    · rintro ⟨rfl, rfl⟩; norm_num at hz
  · rename_i hz
    rw [not_or] at hz
    have hp' : 0 < p := lt_of_le_of_ne hp (Ne.symm hz.1)
    have hr' : 0 < r := lt_of_le_of_ne hr (Ne.symm hz.2)
    have hd : 0 < 3 * 3 * p + r := by positivity
    have e : (1 + 3 * 3) * (p * r / (3 * 3 * p + r)) = (10 * (p * r)) / (3 * 3 * p + r) := by ring
    rw [e]
    have hle : 10 * (p * r) ≤ 3 * 3 * p + r := by
      by_cases h1 : 1 < p
      · have := mul_le_mul_of_nonneg_left (h h1) hp
        linarith
      · have h1' := le_of_not_gt h1
        have a1 := mul_nonneg (sub_nonneg.2 h1') hr
        have a2 := mul_nonneg hp (sub_nonneg.2 hr1)
        nlinarith
    refine ⟨by positivity, by rwa [div_le_one hd], ?_, ?_⟩
    · rw [div_eq_one_iff_eq hd.ne']
      constructor
      · intro he
        by_cases h1 : 1 < p
        · have := mul_le_mul_of_nonneg_left (h h1) hp
          linarith
        · have h1' := le_of_not_gt h1
          have a1 := mul_nonneg (sub_nonneg.2 h1') hr
          have a2 := mul_nonneg hp (sub_nonneg.2 hr1)
          have b1 : r - p * r = 0 := by nlinarith
          have b2 : p - p * r = 0 := by nlinarith
          have hpr : p = r := by linarith
          subst hpr
          have : p * (1 - p) = 0 := by linarith
          rcases mul_eq_zero.1 this with h0 | h0
          · exact absurd h0 hz.1
          · have : p = 1 := by linarith
            exact ⟨this, this⟩
      · rintro ⟨rfl, rfl⟩; norm_num
    · constructor
      · intro he
        have : 0 < 10 * (p * r) / (3 * 3 * p + r) := by positivity
        linarith
      · intro he; exact absurd he (by simp [hz.1, hz.2])

/-- No element in common. -/
theorem clipped_eq_zero {β : Type} [DecidableEq β] (a b : List β) : clipped a b = 0 ↔ ∀ x ∈ a, x ∉ b := by
  rw [← greedy_clipped]
  constructor
  · intro h
    induction a generalizing b with
    | nil => simp
    | cons y a ih =>
      rw [greedy] at h
      split at h
      · omega
      · rename_i hy
        intro x hx
        rcases List.mem_cons.1 hx with rfl | hx
        · exact hy
        · exact ih b h x hx
  · intro h
    induction a generalizing b with
    | nil => rfl
    | cons y a ih =>
      rw [greedy, if_neg (h y List.mem_cons_self)]
      exact ih b (fun x hx => h x (List.mem_cons_of_mem _ hx))

theorem head_mem_of_gram {n : Nat} {s g : List Char} (hn : 0 < n) (h : g ∈ grams n s) : ∃ c rest, g = c :: rest ∧ c ∈ s := by
  obtain ⟨i, hi, rfl⟩ := List.mem_map.1 h
  have hb := numGrams_bound (List.mem_range.1 hi)
  obtain ⟨m, rfl⟩ : ∃ m, n = m + 1 := ⟨n - 1, by omega⟩
  rw [List.drop_eq_getElem_cons (by omega : i < s.length), List.take_succ_cons]
  exact ⟨_, _, rfl, List.getElem_mem _⟩

theorem grams_one (s : List Char) : grams 1 s = s.map fun c => [c] := by
  apply List.ext_getElem
  · rw [length_grams]; unfold numGrams; split <;> simp <;> omega
  · intro i h1 h2
    rw [getElem_grams]
    simp only [List.length_map] at h2
    rw [List.drop_eq_getElem_cons h2, List.take_succ_cons]
    simp

/-- The value of chrF for two non-empty strings: zero exactly when they have no character in common. -/
theorem chrfOf_facts {r s : Str} (hr : r ≠ []) (hs : s ≠ []) :
    0 ≤ chrfOf r s ∧ chrfOf r s ≤ 1 ∧
    (chrfOf r s = 0 ↔ ∀ c ∈ r, c ∉ s) ∧
    (chrfOf r s = 1 ↔ r.length = s.length ∧
      ∀ n ∈ [1, 2, 3, 4], clipped (grams n s) (grams n r) = (grams n r).length) := by
  rw [chrfOf_eq hr hs]
  have hrl : 0 < r.length := List.length_pos_iff.2 hr
  have hsl : 0 < s.length := List.length_pos_iff.2 hs
  obtain ⟨b0, b1, b2, b3⟩ := chrF_bounds (chrP_nonneg r s) (chrR_mem r s).1 (chrR_mem r s).2 chr_short
  have hmr : ((min 4 r.length : Nat) : Rat) ≠ 0 := by
    have : min 4 r.length ≠ 0 := by omega
    exact_mod_cast this
  have hms : ((min 4 s.length : Nat) : Rat) ≠ 0 := by
    have : min 4 s.length ≠ 0 := by omega
    exact_mod_cast this
  have hgr : ∀ n, 0 < n → n ≤ r.length → ((grams n r).length : Rat) ≠ 0 := by
    intro n h0 h1
    rw [length_grams]
    have := (numGrams_pos (s := r) h0).2 h1
    have : numGrams n r ≠ 0 := by omega
    exact_mod_cast this
  refine ⟨b0, b1, ?_, ?_⟩
  · rw [b3]
    have hR : chrR r s = 0 ↔ ∀ c ∈ r, c ∉ s := by
      unfold chrR
      rw [div_eq_zero_iff, or_iff_left hmr, qsum_eq_zero (fun n _ => rec_nonneg n r s)]
      constructor
      · intro h c hc hcs
        have h1 := h 1 (mem_lens.2 ⟨Nat.le_refl _, by omega, by omega⟩)
        unfold chrRec at h1
        rw [div_eq_zero_iff, or_iff_left (hgr 1 (by decide) (by omega))] at h1
        have h2 : clipped (grams 1 s) (grams 1 r) = 0 := by exact_mod_cast h1
        rw [clipped_eq_zero, grams_one, grams_one] at h2
        exact h2 [c] (List.mem_map.2 ⟨c, hcs, rfl⟩) (List.mem_map.2 ⟨c, hc, rfl⟩)
      · intro h n hn
        have hn' := mem_lens.1 hn
        unfold chrRec
        have : clipped (grams n s) (grams n r) = 0 := by
          rw [clipped_eq_zero]
          intro g hg hgr'
          obtain ⟨c, rest, e, hc⟩ := head_mem_of_gram (by omega) hg
          obtain ⟨c', rest', e', hc'⟩ := head_mem_of_gram (by omega) hgr'
          rw [e] at e'
          injection e' with e1 _
          subst e1
          exact h c hc' hc
        rw [this]; simp
    constructor
    · rintro (h | h)
      · intro c hc hcs
        unfold chrP at h
        rw [div_eq_zero_iff, or_iff_left hms, qsum_eq_zero (fun n _ => prec_nonneg n r s)] at h
        have h1 := h 1 (mem_lens.2 ⟨Nat.le_refl _, by omega, by omega⟩)
        unfold chrPrec at h1
        have hg : (grams 1 s).length ≠ 0 := by
          rw [length_grams]
          have := (numGrams_pos (s := s) (by decide : 0 < 1)).2 (by omega)
          omega
        have hg' : ((grams 1 s).length : Rat) ≠ 0 := by exact_mod_cast hg
        rw [if_neg hg, div_eq_zero_iff, or_iff_left hg'] at h1
        have h2 : clipped (grams 1 s) (grams 1 r) = 0 := by exact_mod_cast h1
        rw [clipped_eq_zero, grams_one, grams_one] at h2
        exact h2 [c] (List.mem_map.2 ⟨c, hcs, rfl⟩) (List.mem_map.2 ⟨c, hc, rfl⟩)
      · exact hR.1 h
    · intro h; exact Or.inr (hR.2 h)
  · rw [b2]
    have hR : chrR r s = 1 ↔ ∀ n ∈ [1, 2, 3, 4], clipped (grams n s) (grams n r) = (grams n r).length := by
      unfold chrR
      rw [div_eq_one_iff_eq hmr]
      have e := qsum_eq_length (l := List.range' 1 (min 4 r.length)) (fun n _ => rec_le_one n r s)
      rw [List.length_range'] at e
      rw [e]
      constructor
      · intro h n hn
        have hn' : 1 ≤ n ∧ n ≤ 4 := by
          simp only [List.mem_cons, List.not_mem_nil, or_false] at hn
          omega
        by_cases hnr : n ≤ r.length
        · have h1 := h n (mem_lens.2 ⟨hn'.1, hn'.2, hnr⟩)
          unfold chrRec at h1
          rw [div_eq_one_iff_eq (hgr n (by omega) hnr)] at h1
          exact_mod_cast h1
        · have h0 : (grams n r).length = 0 := by
            rw [length_grams]; unfold numGrams; rw [if_pos (by omega)]
          have := clipped_le (grams n r) (grams n s)
          rw [clipped_comm] at this
          omega
      · intro h n hn
        have hn' := mem_lens.1 hn
        unfold chrRec
        rw [h n (by simp only [List.mem_cons, List.not_mem_nil, or_false]; omega)]
        exact div_self (hgr n (by omega) hn'.2.2)
    constructor
    · rintro ⟨hP, h1⟩
      have hcl := hR.1 h1
      refine ⟨?_, hcl⟩
      have c1 := hcl 1 (by simp)
      have g1 : ∀ t : Str, (grams 1 t).length = t.length := by intro t; rw [grams_one]; simp
      have hle : r.length ≤ s.length := by
        have := clipped_le (grams 1 s) (grams 1 r)
        rw [c1, g1, g1] at this
        exact this
      rcases Nat.lt_or_ge r.length s.length with hlt | hge
      · exfalso
        unfold chrP at hP
        rw [div_eq_one_iff_eq hms] at hP
        have e := qsum_eq_length (l := List.range' 1 (min 4 r.length)) (fun n _ => prec_le_one n r s)
        have a := qsum_le (l := List.range' 1 (min 4 r.length)) (fun n _ => prec_le_one n r s)
        rw [qsum_one] at a
        rw [List.length_range'] at e a
        have hmm : ((min 4 r.length : Nat) : Rat) ≤ (min 4 s.length : Nat) := by
          exact_mod_cast (by omega : min 4 r.length ≤ min 4 s.length)
        have h2 := e.1 (by linarith) 1 (mem_lens.2 ⟨Nat.le_refl _, by omega, by omega⟩)
        unfold chrPrec at h2
        rw [c1, g1, g1, if_neg (by omega), div_eq_one_iff_eq (by
          have : s.length ≠ 0 := by omega
          exact_mod_cast this)] at h2
        have h3 : r.length = s.length := by exact_mod_cast h2
        omega
      · omega
    · rintro ⟨hlen, hcl⟩
      refine ⟨?_, hR.2 hcl⟩
      unfold chrP
      rw [div_eq_one_iff_eq hms, ← hlen]
      have e := qsum_eq_length (l := List.range' 1 (min 4 r.length)) (fun n _ => prec_le_one n r s)
      rw [List.length_range'] at e
      rw [e]
      intro n hn
      have hn' := mem_lens.1 hn
      have hgl : (grams n s).length = (grams n r).length := by
        rw [length_grams, length_grams]; unfold numGrams; rw [hlen]
      unfold chrPrec
      rw [hgl, hcl n (by simp only [List.mem_cons, List.not_mem_nil, or_false]; omega)]
      have := hgr n (by omega) hn'.2.2
      have h0 : (grams n r).length ≠ 0 := by exact_mod_cast this
      rw [if_neg h0]
      exact div_self this

/-- C117: the score of two sentences is between 0 and 1. It is 1 for the reference itself, and exactly when both
(with single blanks between words) have the same length and the same n-grams with n ≤ 4; if only one is empty it is 0;
if none is empty it is 0 exactly when no character appears in both, and otherwise it is the F-measure, with recall
weighted 3 times, of the sum of precisions and the mean of recalls (`chrP`, `chrR`). It does not depend on the blanks
between words. -/
theorem C117_chrf (ref sys : Str) :
    0 ≤ chrf ref sys ∧ chrf ref sys ≤ 1 ∧ chrf ref ref = 1 ∧
    (chrf ref sys = 1 ↔ (chrNorm ref).length = (chrNorm sys).length ∧ ∀ n ∈ [1, 2, 3, 4],
      clipped (grams n (chrNorm sys)) (grams n (chrNorm ref)) = (grams n (chrNorm ref)).length) ∧
    (chrNorm ref = [] → chrNorm sys ≠ [] → chrf ref sys = 0) ∧
    (chrNorm ref ≠ [] → chrNorm sys = [] → chrf ref sys = 0) ∧
    (chrNorm ref ≠ [] → chrNorm sys ≠ [] →
      (chrf ref sys = 0 ↔ ∀ c ∈ chrNorm ref, c ∉ chrNorm sys) ∧
      chrf ref sys * (9 * chrP (chrNorm ref) (chrNorm sys) + chrR (chrNorm ref) (chrNorm sys)) =
        10 * (chrP (chrNorm ref) (chrNorm sys) * chrR (chrNorm ref) (chrNorm sys))) ∧
    chrf (chrNorm ref) (chrNorm sys) = chrf ref sys := by
  have idem : ∀ s : Str, chrNorm (chrNorm s) = chrNorm s := by
    intro s
    unfold chrNorm
    rw [StrProc.C15_roundtrip _ (StrProc.C15_token_facts s).1]
  have all : ∀ r s : Str, 0 ≤ chrfOf r s ∧ chrfOf r s ≤ 1 ∧
      (chrfOf r s = 1 ↔ r.length = s.length ∧
        ∀ n ∈ [1, 2, 3, 4], clipped (grams n s) (grams n r) = (grams n r).length) ∧
      (r = [] → s ≠ [] → chrfOf r s = 0) ∧ (r ≠ [] → s = [] → chrfOf r s = 0) := by
    intro r s
    by_cases hr : r = []
    · by_cases hs : s = []
      · subst hr hs
        have e : chrfOf [] [] = 1 := rfl
        rw [e]
        refine ⟨zero_le_one, le_refl _, ?_, fun _ h => absurd rfl h, fun h => absurd rfl h⟩
        simp only [true_iff, true_and]
        intro n hn
        simp only [List.mem_cons, List.not_mem_nil, or_false] at hn
        rcases hn with rfl | rfl | rfl | rfl <;> decide +kernel
      · have hs' : s.length ≠ 0 := by simpa using hs
        subst hr
        have e : chrfOf [] s = 0 := by
          unfold chrfOf
          rw [if_neg (by simp [hs]), if_pos (Or.inl List.length_nil)]
        rw [e]
        refine ⟨le_refl _, zero_le_one, ?_, fun _ _ => rfl, fun _ h => absurd h hs⟩
        constructor
        · intro h; exact absurd h (by norm_num)
        · rintro ⟨h, _⟩; simp at h; exact absurd h.symm hs'
    · by_cases hs : s = []
      · have hr' : r.length ≠ 0 := by simpa using hr
        subst hs
        have e : chrfOf r [] = 0 := by
          unfold chrfOf
          rw [if_neg (by simp [hr]), if_pos (Or.inr List.length_nil)]
        rw [e]
        refine ⟨le_refl _, zero_le_one, ?_, fun h => absurd h hr, fun _ _ => rfl⟩
        constructor
        · intro h; exact absurd h (by norm_num)
        · rintro ⟨h, _⟩; simp at h; exact absurd (by simpa using h) hr'
      · obtain ⟨h1, h2, h3, h4⟩ := chrfOf_facts hr hs
        exact ⟨h1, h2, h4, fun h => absurd h hr, fun _ h => absurd h hs⟩
  obtain ⟨a1, a2, a3, a4, a5⟩ := all (chrNorm ref) (chrNorm sys)
  refine ⟨a1, a2, ?_, a3, a4, a5, ?_, ?_⟩
  · exact (all (chrNorm ref) (chrNorm ref)).2.2.1.2 ⟨rfl, fun n _ => clipped_self _⟩
  · intro hr hs
    refine ⟨(chrfOf_facts hr hs).2.2.1, ?_⟩
    unfold chrf
    rw [chrfOf_eq hr hs]
    have hp := chrP_nonneg (chrNorm ref) (chrNorm sys)
    have hq := (chrR_mem (chrNorm ref) (chrNorm sys)).1
    obtain ⟨p, hp'⟩ : ∃ p, p = chrP (chrNorm ref) (chrNorm sys) := ⟨_, rfl⟩
    obtain ⟨q, hq'⟩ : ∃ q, q = chrR (chrNorm ref) (chrNorm sys) := ⟨_, rfl⟩
    rw [← hp'] at hp ⊢
    rw [← hq'] at hq ⊢
    unfold chrF
    split
    · rename_i h
      rcases h with h | h <;> rw [h] <;> ring
    · rename_i h
      rw [not_or] at h
      have hp'' : 0 < p := lt_of_le_of_ne hp (Ne.symm h.1)
      have : (3 * 3 * p + q) ≠ 0 := by positivity
      have : (9 * p + q) ≠ 0 := by positivity
      field_simp
      ring
  · unfold chrf; rw [idem, idem]

theorem chrf_foldl (l : List (Str × Str)) (a : Rat) :
    l.foldl (fun a p => a + chrf p.1 p.2) a = a + qsum (fun p => chrf p.1 p.2) l := by
  induction l generalizing a with
  | nil => simp [qsum_nil]
  | cons p l ih => rw [List.foldl_cons, ih, qsum_cons]; ring

/-- C117: the score of a corpus with sentences is the mean of the scores of its sentences, so it is between 0 and 1 and it
is 1 exactly when all of them are 1. (Without sentences it is not a number.) -/
theorem C117_corpus (l : List (Str × Str)) (hl : l ≠ []) :
    ∃ v, chrfCorpus l = some v ∧ v * l.length = qsum (fun p => chrf p.1 p.2) l ∧ 0 ≤ v ∧ v ≤ 1 ∧
      (v = 1 ↔ ∀ p ∈ l, chrf p.1 p.2 = 1) := by
  have h0 : l.length ≠ 0 := by simpa using hl
  have h0' : (l.length : Rat) ≠ 0 := by exact_mod_cast h0
  refine ⟨qsum (fun p => chrf p.1 p.2) l / l.length, ?_, ?_, ?_, ?_, ?_⟩
  · unfold chrfCorpus
    rw [if_neg h0, chrf_foldl, zero_add]
  · field_simp
  · exact div_nonneg (qsum_nonneg fun p _ => (C117_chrf p.1 p.2).1) (by positivity)
  · apply div_le_one_of_le₀ _ (by positivity)
    have := qsum_le (l := l) (fun p _ => (C117_chrf p.1 p.2).2.1)
    rwa [qsum_one] at this
  · rw [div_eq_one_iff_eq h0']
    exact qsum_eq_length (fun p _ => (C117_chrf p.1 p.2).2.1)

/-- C117: with the scale of the updater. -/
theorem C117_background (cand ref : Str) :
    chrfBackground cand ref = chrf ref cand * (stringToStringVector ref).length ∧
    0 ≤ chrfBackground cand ref ∧ chrfBackground cand ref ≤ (stringToStringVector ref).length := by
  refine ⟨rfl, ?_, ?_⟩
  · exact mul_nonneg (C117_chrf ref cand).1 (by positivity)
  · exact mul_le_of_le_one_left (by positivity) (C117_chrf ref cand).2.1

/-- Non-vacuity: the precision does exceed 1 with a short translation. -/
example : chrP "abcd".toList "ab".toList = 2 ∧ chrR "abcd".toList "ab".toList = 5 / 24 ∧
    chrf "abcd".toList "ab".toList = 100 / 437 := by decide +kernel

example : chrNorm "a  b".toList ≠ [] := by decide +kernel

end Thot.Metrics
