import Verif.Exper.Model
import Verif.Common.Sum
/-!
# C285, C286: confidence intervals
-/
namespace Thot.Exper

open Thot
open Thot.Sum (sumBy sumBy_nil sumBy_cons)

/-! ### The results -/

theorem bootLoop_eq (m : Nat → Rat) (N : Nat) : ∀ (f n : Nat), N ≤ n + f → bootLoop m N f n = (List.range (N - n)).map fun k => m (n + k) := by
  intro f
  induction f with
  | zero => intro n h; rw [bootLoop, show N - n = 0 from by omega]; rfl
  | succ f ih =>
    intro n h
    rw [bootLoop]
    split
    · rename_i hlt
      rw [ih (n + 1) (by omega), show N - n = (N - (n + 1)) + 1 from by omega, List.range_succ_eq_map, List.map_cons, List.map_map]
      congr 1
      apply List.map_congr_left
      intro k _
      simp only [Function.comp]
      congr 1
      omega
    · rename_i hge
      rw [show N - n = 0 from by omega]; rfl

/-- Full statement of C285: the results of `N` bootstrap experiments are used. -/
def C285_full : Prop := ∀ (m : Nat → Rat) (N : Nat), scef m N = (List.range N).map fun k => m (k + 1)

/-- C285 for all but the last experiment. Missing: the loop stops before the `N`-th one. -/
theorem C285_runs_partial (m : Nat → Rat) (N : Nat) : scef m N = (List.range (N - 1)).map fun k => m (k + 1) := by
  unfold scef
  rw [bootLoop_eq m N N 1 (by omega)]
  apply List.map_congr_left
  intro k _
  rw [Nat.add_comm]

/-- With one experiment requested there are no results. -/
theorem C285_counterexample : ¬ C285_full := by
  intro h
  have := h (fun _ => 0) 1
  revert this
  decide +kernel

/-! ### Sorted lists -/

theorem pairwise_get {l : List Rat} (h : l.Pairwise fun a b => a ≤ b) {i j : Nat} (hij : i ≤ j) (hj : j < l.length) : l[i] ≤ l[j] := by
  rcases Nat.lt_or_eq_of_le hij with h' | h'
  · exact List.pairwise_iff_getElem.1 h i j (by omega) hj h'
  · subst h'; exact Rat.le_refl

theorem below {l : List Rat} (h : l.Pairwise fun a b => a ≤ b) {i : Nat} (hi : i < l.length) : l.countP (fun x => decide (x < l[i])) ≤ i := by
  have e : l.countP (fun x => decide (x < l[i])) = (l.take i ++ l.drop i).countP fun x => decide (x < l[i]) := by rw [List.take_append_drop]
  rw [e, List.countP_append]
  have h0 : (l.drop i).countP (fun x => decide (x < l[i])) = 0 := by
    rw [List.countP_eq_zero]
    intro x hx
    obtain ⟨k, hk, rfl⟩ := List.getElem_of_mem hx
    rw [List.getElem_drop]
    rw [List.length_drop] at hk
    have := pairwise_get h (show i ≤ i + k from by omega) (by omega)
    simp only [decide_eq_true_eq]
    grind
  rw [h0, Nat.add_zero]
  refine Nat.le_trans List.countP_le_length ?_
  rw [List.length_take]
  omega

theorem above {l : List Rat} (h : l.Pairwise fun a b => a ≤ b) {i : Nat} (hi : i < l.length) :
    l.countP (fun x => decide (l[i] < x)) ≤ l.length - 1 - i := by
  have e : l.countP (fun x => decide (l[i] < x)) = (l.take (i + 1) ++ l.drop (i + 1)).countP fun x => decide (l[i] < x) := by
    rw [List.take_append_drop]
  rw [e, List.countP_append]
  have h0 : (l.take (i + 1)).countP (fun x => decide (l[i] < x)) = 0 := by
    rw [List.countP_eq_zero]
    intro x hx
    obtain ⟨k, hk, rfl⟩ := List.getElem_of_mem hx
    rw [List.getElem_take]
    rw [List.length_take] at hk
    have := pairwise_get h (show k ≤ i from by omega) hi
    simp only [decide_eq_true_eq]
    grind
  rw [h0, Nat.zero_add]
  refine Nat.le_trans List.countP_le_length ?_
  rw [List.length_drop]
  omega

theorem headTail_eq {l : List Rat} (hl : l ≠ []) {n : Nat} (hn : 0 < n) :
    ∃ h : min n l.length - 1 < l.length, headTail n l = some (l[min n l.length - 1]) := by
  have hp : 0 < l.length := by cases l with | nil => exact absurd rfl hl | cons => simp
  refine ⟨by omega, ?_⟩
  unfold headTail
  rw [List.getLast?_eq_getElem?, List.length_take, List.getElem?_take_of_lt (by omega), List.getElem?_eq_getElem (by omega)]

theorem sorted_pairwise (m : Nat → Rat) (N : Nat) : (sortedRes m N).Pairwise fun a b => a ≤ b := by
  have := List.pairwise_mergeSort (le := fun (a b : Rat) => decide (a ≤ b)) (l := scef m N)
    (by intro a b c; simp only [decide_eq_true_eq]; exact fun h1 h2 => Rat.le_trans h1 h2)
    (by intro a b; simp only [Bool.or_eq_true, decide_eq_true_eq]; exact Rat.le_total)
  refine List.Pairwise.imp ?_ this
  intro a b; simp only [decide_eq_true_eq]; exact id

/-- C285: with two subsets or more there is an interval for each level (`p = 25`: 95%, `p = 50`: 90%); its bounds are results, at most `p/1000` of `N`
results are below it and at most the same number above it, and the center and the radius give the bounds. -/
theorem C285_interval (p : Nat) (hp : p ≤ 50) (m : Nat → Rat) (N : Nat) (hN : 2 ≤ N) : ∃ iv : Interval, interval p m N = some iv ∧
    iv.lb ≤ iv.ub ∧ iv.lb ∈ scef m N ∧ iv.ub ∈ scef m N ∧
    1000 * (scef m N).countP (fun x => decide (x < iv.lb)) ≤ p * N ∧ 1000 * (scef m N).countP (fun x => decide (iv.ub < x)) ≤ p * N ∧
    iv.center - iv.rad = iv.lb ∧ iv.center + iv.rad = iv.ub := by
  have hperm : (sortedRes m N).Perm (scef m N) := List.mergeSort_perm _ _
  have hlen : (sortedRes m N).length = N - 1 := by rw [hperm.length_eq, C285_runs_partial]; simp
  have hne : sortedRes m N ≠ [] := by intro h; rw [h] at hlen; simp at hlen; omega
  have hpw := sorted_pairwise m N
  have hpN : p * N ≤ 50 * N := Nat.mul_le_mul_right N hp
  have hlow : 1000 * (lowIdx p N - 1) ≤ p * N := by unfold lowIdx; omega
  have hlow1 : 0 < lowIdx p N := by unfold lowIdx; omega
  have hhigh : highIdx p N = N - (lowIdx p N - 1) := by unfold highIdx; omega
  have hbig : lowIdx p N - 1 ≤ N / 20 := by omega
  obtain ⟨h1, e1⟩ := headTail_eq hne hlow1
  obtain ⟨h2, e2⟩ := headTail_eq hne (show 0 < highIdx p N from by omega)
  refine ⟨⟨_, _, _, _⟩, by unfold interval; rw [e1, e2], ?_, ?_, ?_, ?_, ?_, ?_, ?_⟩
  · dsimp only
    apply pairwise_get hpw _ h2
    rw [hlen]; omega
  · exact hperm.mem_iff.1 (List.getElem_mem _)
  · exact hperm.mem_iff.1 (List.getElem_mem _)
  · dsimp only
    have := below hpw h1
    rw [← hperm.countP_eq]
    omega
  · dsimp only
    have := above hpw h2
    rw [← hperm.countP_eq]
    omega
  · dsimp only; grind
  · dsimp only; grind

/-! ### Mean and deviation -/

theorem foldl_add (l : List Rat) : ∀ a : Rat, l.foldl (· + ·) a = a + sumBy id l := by
  induction l with
  | nil => intro a; rw [sumBy_nil]; exact (Rat.add_zero a).symm
  | cons x l ih => intro a; rw [List.foldl_cons, ih, sumBy_cons]; simp only [id]; grind

theorem foldl_sq (med : Rat) (l : List Rat) : ∀ a : Rat, l.foldl (fun s x => s + (x - med) * (x - med)) a = a + sumBy (fun x => (x - med) * (x - med)) l := by
  induction l with
  | nil => intro a; rw [sumBy_nil]; exact (Rat.add_zero a).symm
  | cons x l ih => intro a; rw [List.foldl_cons, ih, sumBy_cons]; grind

/-- C285: the mean and the squared deviation are those of the results; with three subsets or more there is no division by zero. -/
theorem C285_stats (m : Nat → Rat) (N : Nat) (hN : 3 ≤ N) : ∃ mean var : Rat, meanOf (scef m N) = some mean ∧ varOf (scef m N) mean = some var ∧
    mean * ((N : Rat) - 1) = sumBy (fun k => m (k + 1)) (List.range (N - 1)) ∧
    var * ((N : Rat) - 2) = sumBy (fun k => (m (k + 1) - mean) * (m (k + 1) - mean)) (List.range (N - 1)) := by
  have hlen : (scef m N).length = N - 1 := by rw [C285_runs_partial]; simp
  have hc : ((N - 1 : Nat) : Rat) = (N : Rat) - 1 := by
    obtain ⟨k, rfl⟩ : ∃ k, N = k + 1 := ⟨N - 1, by omega⟩
    simp only [Nat.add_sub_cancel]; push_cast; grind
  have h3 : (3 : Rat) ≤ (N : Rat) := by exact_mod_cast hN
  have hmap : ∀ f : Rat → Rat, sumBy f (scef m N) = sumBy (fun k => f (m (k + 1))) (List.range (N - 1)) := by
    intro f
    rw [C285_runs_partial]
    unfold sumBy
    rw [List.map_map]
    rfl
  have e1 : meanOf (scef m N) = some (sumBy id (scef m N) / ((N : Rat) - 1)) := by
    unfold meanOf
    rw [if_neg (show ¬ (scef m N).length = 0 from by omega), foldl_add, hlen, hc]
    congr 2
    grind
  have e2 : ∀ med, varOf (scef m N) med = some (sumBy (fun x => (x - med) * (x - med)) (scef m N) / ((N : Rat) - 2)) := by
    intro med
    unfold varOf
    rw [if_neg (show ¬ (scef m N).length = 1 from by omega), foldl_sq, hlen, hc]
    congr 2
    · grind
    · grind
  refine ⟨_, _, e1, e2 _, ?_, ?_⟩
  · rw [Rat.div_mul_cancel (by grind), hmap]; rfl
  · rw [Rat.div_mul_cancel (by grind), hmap]

/-! ### C286 -/

/-- C286: a sample has `S` pairs, and each of them is a sentence of the test file with its reference. -/
theorem C286_sample (u : Nat → Nat) (ref test : List W) (S : Nat) (hl : ref.length = test.length) (hu : ∀ i, u i < test.length) :
    (sample u ref test S).length = S ∧ ∀ x ∈ sample u ref test S, x ∈ ref.zip test := by
  refine ⟨by simp [sample], ?_⟩
  intro x hx
  obtain ⟨i, _, rfl⟩ := List.mem_map.1 hx
  have h1 := hu i
  rw [List.getD_eq_getElem?_getD, List.getD_eq_getElem?_getD, List.getElem?_eq_getElem h1, List.getElem?_eq_getElem (hl ▸ h1)]
  refine List.mem_iff_getElem.2 ⟨u i, by simp [hl, h1], by simp⟩

/-- Sums of the sampled lines. -/
def total (f : Nat × Nat × Nat → Nat) (u : Nat → Nat) (lines : List (Nat × Nat × Nat)) (S : Nat) : Nat :=
  ((List.range S).map fun i => f (lines.getD (u i) (0, 0, 0))).sum

theorem cat_fold (u : Nat → Nat) (lines : List (Nat × Nat × Nat)) (is : List Nat) : ∀ (a : Nat × Nat × Nat),
    is.foldl (fun (a : Nat × Nat × Nat) i =>
      let f := lines.getD (u i) (0, 0, 0)
      (a.1 + f.1, a.2.1 + f.2.1, a.2.2 + f.2.2)) a =
    (a.1 + (is.map fun i => (lines.getD (u i) (0, 0, 0)).1).sum, a.2.1 + (is.map fun i => (lines.getD (u i) (0, 0, 0)).2.1).sum,
      a.2.2 + (is.map fun i => (lines.getD (u i) (0, 0, 0)).2.2).sum) := by
  induction is with
  | nil => intro a; simp
  | cons i is ih =>
    intro a
    rw [List.foldl_cons, ih]
    simp only [List.map_cons, List.sum_cons]
    refine Prod.ext ?_ (Prod.ext ?_ ?_) <;> dsimp only <;> omega

/-- C286: in a computer-assisted translation experiment the measures of a sample are the key strokes, and the key strokes with mouse actions, by one
hundred characters of the whole sample; there is a division by zero only if the sample has no characters. -/
theorem C286_cat (u : Nat → Nat) (lines : List (Nat × Nat × Nat)) (S : Nat) :
    (catMeasures u lines S = none ↔ total (·.1) u lines S = 0) ∧
    ∀ ksr ksmr : Rat, catMeasures u lines S = some (ksr, ksmr) →
      ksr * total (·.1) u lines S = 100 * total (·.2.1) u lines S ∧ ksmr * total (·.1) u lines S = 100 * total (·.2.2) u lines S := by
  unfold catMeasures
  rw [cat_fold]
  dsimp only
  simp only [Nat.zero_add]
  change ((if total (·.1) u lines S = 0 then none else some ((total (·.2.1) u lines S : Rat) / (total (·.1) u lines S : Nat) * 100, (total (·.2.2) u lines S : Rat) / (total (·.1) u lines S : Nat) * 100)) = none ↔ _) ∧
    ∀ ksr ksmr : Rat, (if total (·.1) u lines S = 0 then none else some ((total (·.2.1) u lines S : Rat) / (total (·.1) u lines S : Nat) * 100, (total (·.2.2) u lines S : Rat) / (total (·.1) u lines S : Nat) * 100)) = some (ksr, ksmr) → _
  generalize total (·.1) u lines S = c
  generalize total (·.2.1) u lines S = k1
  generalize total (·.2.2) u lines S = k2
  by_cases hc : c = 0
  · rw [if_pos hc]
    refine ⟨by simp [hc], ?_⟩
    intro _ _ h; cases h
  · rw [if_neg hc]
    refine ⟨by simp [hc], ?_⟩
    intro ksr ksmr h
    injection h with h
    injection h with h1 h2
    have hc' : (c : Rat) ≠ 0 := by exact_mod_cast hc
    have e1 : (k1 : Rat) / (c : Rat) * c = k1 := Rat.div_mul_cancel hc'
    have e2 : (k2 : Rat) / (c : Rat) * c = k2 := Rat.div_mul_cancel hc'
    rw [← h1, ← h2]
    grind

example : (lowIdx 25 100, highIdx 25 100, lowIdx 50 100, highIdx 50 100) = (3, 98, 6, 95) := by decide +kernel
example : ∃ iv, interval 25 (fun k => k) 100 = some iv := by
  obtain ⟨iv, h, _⟩ := C285_interval 25 (by omega) (fun k => k) 100 (by omega)
  exact ⟨iv, h⟩
example : catMeasures (fun i => i % 2) [(10, 2, 3), (30, 2, 5)] 2 = some (10, 20) := by decide +kernel

end Thot.Exper
