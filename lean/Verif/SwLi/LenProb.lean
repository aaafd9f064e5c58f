import Verif.SwLi.Len
import Mathlib.Algebra.Order.Field.Basic
import Mathlib.Algebra.Order.BigOperators.Group.Finset
import Mathlib.Algebra.BigOperators.Intervals
import Mathlib.Analysis.SpecialFunctions.Log.Basic
import Mathlib.Algebra.Order.Ring.Unbundled.Rat
/-!
The sums of sentence length probabilities (C203): `sumSentLenProb` with its table, `sumSentLenScoreRange` and
`sentLenScoreForPartialHyp` (`/repo/src/stack_dec/_phrSwTransModel.h`:385-486). Probabilities and scores are exact numbers.
-/
namespace Thot.SwLi.Len

section
variable {R : Type} [Field R] [LinearOrder R] [IsStrictOrderedRing R]

/-- `sumSentLenProbVec`. -/
abbrev Cache (R : Type) := List (List R)

/-- `Reserve memory if necesary`. _phrSwTransModel.h:448-455. -/
def reserve (c : Cache R) (s t : Nat) : Cache R :=
  let c1 := c ++ List.replicate (s + 1 - c.length) []
  c1.set s ((c1.getD s []) ++ List.replicate (t + 1 - (c1.getD s []).length) (-1))

def cell (c : Cache R) (s t : Nat) : R := (c.getD s []).getD t 0
def setCell (c : Cache R) (s t : Nat) (v : R) : Cache R := c.set s ((c.getD s []).set t v)

/-- _phrSwTransModel.h:443-477 `sumSentLenProb`; `P s t` is `sentLenProb(t, s)` of the inverse model. -/
def sumProb (P : Nat → Nat → R) (s : Nat) : Nat → Cache R → Cache R × R
  | 0, c =>
    let c1 := reserve c s 0
    if cell c1 s 0 ≥ 0 then (c1, cell c1 s 0) else (setCell c1 s 0 (P s 0), P s 0)
  | t + 1, c =>
    let c1 := reserve c s (t + 1)
    if cell c1 s (t + 1) ≥ 0 then (c1, cell c1 s (t + 1))
    else
      let r := sumProb P s t c1
      (setCell r.1 s (t + 1) (r.2 + P s (t + 1)), r.2 + P s (t + 1))

/-- The argument of the logarithm in `sumSentLenScoreRange`. _phrSwTransModel.h:479-486. -/
def sumRange (P : Nat → Nat → R) (s : Nat) (r : Nat × Nat) (c : Cache R) : Cache R × R :=
  if r.1 ≠ 0 then
    let a := sumProb P s r.2 c
    let b := sumProb P s (r.1 - 1) a.1
    (b.1, a.2 - b.2)
  else sumProb P s r.2 c

/-! ### Specification and proofs -/

/-- The sum of the probabilities of the lengths up to `t`. -/
def cum (P : Nat → Nat → R) (s t : Nat) : R := ∑ k ∈ Finset.range (t + 1), P s k

/-- A table whose stored values are right. -/
def Good (P : Nat → Nat → R) (c : Cache R) : Prop :=
  ∀ s t, (h : s < c.length) → (h2 : t < c[s].length) → c[s][t] = -1 ∨ c[s][t] = cum P s t

omit [LinearOrder R] [IsStrictOrderedRing R] in
theorem reserve_good (P : Nat → Nat → R) {c : Cache R} (h : Good P c) (s t : Nat) :
    Good P (reserve c s t) ∧ s < (reserve c s t).length ∧ t < ((reserve c s t).getD s []).length := by
  unfold reserve
  simp only
  generalize hc1 : c ++ List.replicate (s + 1 - c.length) [] = c1
  have hlen : s < c1.length := by rw [← hc1]; simp; omega
  have hg1 : Good P c1 := by
    intro a b ha hb
    subst hc1
    by_cases hac : a < c.length
    · simp only [List.getElem_append_left hac] at hb ⊢
      exact h a b hac hb
    · rw [List.getElem_append_right (by omega)] at hb
      simp at hb
  have hrow : c1.getD s [] = c1[s] := by simp [List.getD_eq_getElem?_getD, List.getElem?_eq_getElem hlen]
  refine ⟨?_, by simpa using hlen, ?_⟩
  · intro a b ha hb
    simp only [List.length_set] at ha
    by_cases hsa : s = a
    · subst hsa
      simp only [List.getElem_set_self] at hb ⊢
      rw [hrow] at hb
      simp only [hrow]
      by_cases hb2 : b < c1[s].length
      · rw [List.getElem_append_left hb2]
        exact hg1 s b hlen hb2
      · rw [List.getElem_append_right (by omega)]
        left; simp
    · simp only [List.getElem_set_ne hsa] at hb ⊢
      exact hg1 a b ha hb
  · rw [List.getD_eq_getElem?_getD, List.getElem?_set_self hlen]
    simp; omega

omit [LinearOrder R] [IsStrictOrderedRing R] in
theorem cell_eq {c : Cache R} {s t : Nat} (h1 : s < c.length) (h2 : t < (c.getD s []).length) :
    ∃ h3 : t < c[s].length, cell c s t = c[s][t] := by
  have e : c.getD s [] = c[s] := by simp [List.getD_eq_getElem?_getD, List.getElem?_eq_getElem h1]
  rw [e] at h2
  refine ⟨h2, ?_⟩
  unfold cell
  rw [e]
  simp [List.getD_eq_getElem?_getD, List.getElem?_eq_getElem h2]

omit [LinearOrder R] [IsStrictOrderedRing R] in
theorem setCell_good (P : Nat → Nat → R) {c : Cache R} (h : Good P c) (s t : Nat) : Good P (setCell c s t (cum P s t)) := by
  intro a b ha hb
  simp only [setCell, List.length_set] at ha
  simp only [setCell] at hb ⊢
  by_cases hsa : s = a
  · subst hsa
    have e : c.getD s [] = c[s] := by simp [List.getD_eq_getElem?_getD, List.getElem?_eq_getElem ha]
    simp only [e, List.getElem_set_self, List.length_set] at hb ⊢
    by_cases htb : t = b
    · subst htb; right; simp
    · rw [List.getElem_set_ne htb]
      exact h s b ha hb
  · simp only [List.getElem_set_ne hsa] at hb ⊢
    exact h a b ha hb

omit [LinearOrder R] [IsStrictOrderedRing R] in
theorem cum_succ (P : Nat → Nat → R) (s t : Nat) : cum P s (t + 1) = cum P s t + P s (t + 1) := Finset.sum_range_succ _ _

theorem sumProb_good (P : Nat → Nat → R) (s : Nat) : ∀ (t : Nat) (c : Cache R), Good P c →
    Good P (sumProb P s t c).1 ∧ (sumProb P s t c).2 = cum P s t
  | 0, c, h => by
    obtain ⟨h1, h2, h3⟩ := reserve_good P h s 0
    unfold sumProb
    simp only
    split
    · rename_i hge
      refine ⟨h1, ?_⟩
      obtain ⟨h4, h5⟩ := cell_eq h2 h3
      rcases h1 s 0 h2 h4 with h6 | h6
      · rw [h5, h6] at hge
        have : (-1 : R) < 0 := by simp
        exact absurd hge (not_le.2 this)
      · rw [h5, h6]
    · have e : P s 0 = cum P s 0 := by simp [cum]
      rw [e]
      exact ⟨setCell_good P h1 s 0, rfl⟩
  | t + 1, c, h => by
    obtain ⟨h1, h2, h3⟩ := reserve_good P h s (t + 1)
    unfold sumProb
    simp only
    split
    · rename_i hge
      refine ⟨h1, ?_⟩
      obtain ⟨h4, h5⟩ := cell_eq h2 h3
      rcases h1 s (t + 1) h2 h4 with h6 | h6
      · rw [h5, h6] at hge
        have : (-1 : R) < 0 := by simp
        exact absurd hge (not_le.2 this)
      · rw [h5, h6]
    · obtain ⟨i1, i2⟩ := sumProb_good P s t _ h1
      rw [i2, ← cum_succ]
      exact ⟨setCell_good P i1 s (t + 1), rfl⟩

/-- The sum of the probabilities of the lengths of a range. -/
def rangeSum (P : Nat → Nat → R) (s : Nat) (r : Nat × Nat) : R := ∑ k ∈ Finset.Icc r.1 r.2, P s k

omit [LinearOrder R] [IsStrictOrderedRing R] in
theorem cum_sub (P : Nat → Nat → R) (s a b : Nat) (h : a + 1 ≤ b + 1) : cum P s b - cum P s a = ∑ k ∈ Finset.Icc (a + 1) b, P s k := by
  unfold cum
  rw [← Finset.sum_range_add_sum_Ico _ h]
  have : Finset.Ico (a + 1) (b + 1) = Finset.Icc (a + 1) b := by
    ext k; simp
  rw [this]; ring

/-- A sequence of queries: lengths of source sentences and ranges. -/
def queries (P : Nat → Nat → R) : List (Nat × (Nat × Nat)) → Cache R → List R
  | [], _ => []
  | q :: qs, c => (sumRange P q.1 q.2 c).2 :: queries P qs (sumRange P q.1 q.2 c).1

theorem sumRange_good (P : Nat → Nat → R) (s : Nat) (r : Nat × Nat) (hr : r.1 ≤ r.2) (c : Cache R) (h : Good P c) :
    Good P (sumRange P s r c).1 ∧ (sumRange P s r c).2 = rangeSum P s r := by
  unfold sumRange
  split
  · rename_i h0
    obtain ⟨a1, a2⟩ := sumProb_good P s r.2 c h
    obtain ⟨b1, b2⟩ := sumProb_good P s (r.1 - 1) _ a1
    refine ⟨b1, ?_⟩
    simp only
    rw [a2, b2, cum_sub P s (r.1 - 1) r.2 (by omega)]
    unfold rangeSum
    rw [show r.1 - 1 + 1 = r.1 by omega]
  · rename_i h0
    obtain ⟨a1, a2⟩ := sumProb_good P s r.2 c h
    refine ⟨a1, ?_⟩
    rw [a2]
    have h0' : r.1 = 0 := by omega
    unfold cum rangeSum
    rw [h0']
    congr 1
    ext k; simp

/-- C203: from an empty table, in any sequence of queries of ranges, each answer is the sum of the probabilities of the lengths of its
range. -/
theorem C203_memo (P : Nat → Nat → R) (qs : List (Nat × (Nat × Nat))) (hq : ∀ q ∈ qs, q.2.1 ≤ q.2.2) :
    queries P qs [] = qs.map fun q => rangeSum P q.1 q.2 := by
  have gen : ∀ (qs : List (Nat × (Nat × Nat))) (c : Cache R), Good P c → (∀ q ∈ qs, q.2.1 ≤ q.2.2) →
      queries P qs c = qs.map fun q => rangeSum P q.1 q.2 := by
    intro qs
    induction qs with
    | nil => intro c _ _; rfl
    | cons q qs ih =>
      intro c hc hq
      obtain ⟨h1, h2⟩ := sumRange_good P q.1 q.2 (hq q (List.mem_cons_self ..)) c hc
      simp only [queries, List.map_cons]
      rw [h2, ih _ h1 (fun x hx => hq x (List.mem_cons_of_mem _ hx))]
  exact gen qs [] (fun s t h => by simp at h) hq

end

/-- Three queries, the second one answered with stored values. -/
example : queries (fun s t => (t + 1 : ℚ) / (10 * s)) [(1, (0, 3)), (1, (2, 3)), (2, (1, 1))] [] = [1, 7 / 10, 1 / 10] := by decide +kernel

/-- C203: the score of the length of a hypothesis (with a nonnegative weight) is not below that of any complete translation
obtained by translating its gaps with phrases, when this has a positive probability. -/
theorem C203_optimistic (i : Inp) (hM : 0 < i.M) (P : Nat → Nat → ℝ) (hP : ∀ s t, 0 ≤ P s t) (w : ℝ) (hw : 0 ≤ w)
    (gaps : List (Nat × Nat)) (ns : List Nat) (tlen : Nat) (hlen : gaps.length = ns.length)
    (hg : ∀ g ∈ gaps, 1 ≤ g.1 ∧ g.1 ≤ g.2 ∧ g.2 ≤ i.J) (ha : ∀ p ∈ gaps.zip ns, Ach i (p.1.1 - 1) (p.1.2 - 1) p.2)
    (hpos : 0 < P i.J (tlen + ns.sum)) :
    w * Real.log (P i.J (tlen + ns.sum)) ≤
      w * Real.log (rangeSum P i.J ((gapsRange i gaps).1 + tlen, (gapsRange i gaps).2 + tlen)) := by
  have h := C202_gaps i hM gaps ns hlen hg ha
  refine mul_le_mul_of_nonneg_left (Real.log_le_log hpos ?_) hw
  unfold rangeSum
  refine Finset.single_le_sum (f := fun k => P i.J k) (fun k _ => hP i.J k) ?_
  simp only [Finset.mem_Icc]
  omega

end Thot.SwLi.Len
