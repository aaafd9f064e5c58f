import Mathlib.Analysis.SpecialFunctions.Log.Basic
import Mathlib.Tactic.Linarith
import Mathlib.Tactic.Ring
import Mathlib.Tactic.FieldSimp
import Mathlib.Tactic.Positivity
import Mathlib.Data.List.Dedup
/-!
The inequality of the EM algorithm for products of multinomial parameters (models no code; used by C125).

A slot is a weight and a list of options; an option is a list of parameters, its probability is their product, and the
probability of the slot is the sum of those of its options.
-/
namespace Thot.Ibm

open Real

/-- Sum of real numbers over a list. -/
def rsum {A : Type} (f : A → ℝ) (l : List A) : ℝ := (l.map f).sum

theorem rsum_nil {A : Type} (f : A → ℝ) : rsum f [] = 0 := rfl
theorem rsum_cons {A : Type} (f : A → ℝ) (a : A) (l : List A) : rsum f (a :: l) = f a + rsum f l := by simp [rsum]
theorem rsum_congr {A : Type} {f g : A → ℝ} {l : List A} (h : ∀ a ∈ l, f a = g a) : rsum f l = rsum g l := by
  unfold rsum; rw [List.map_congr_left h]
theorem rsum_add {A : Type} (f g : A → ℝ) (l : List A) : rsum (fun a => f a + g a) l = rsum f l + rsum g l := by
  induction l with
  | nil => simp [rsum_nil]
  | cons a l ih => simp only [rsum_cons, ih]; ring
theorem rsum_sub {A : Type} (f g : A → ℝ) (l : List A) : rsum (fun a => f a - g a) l = rsum f l - rsum g l := by
  induction l with
  | nil => simp [rsum_nil]
  | cons a l ih => simp only [rsum_cons, ih]; ring
theorem rsum_mul {A : Type} (k : ℝ) (f : A → ℝ) (l : List A) : rsum (fun a => k * f a) l = k * rsum f l := by
  induction l with
  | nil => simp [rsum_nil]
  | cons a l ih => simp only [rsum_cons, ih]; ring
theorem rsum_mul_right {A : Type} (k : ℝ) (f : A → ℝ) (l : List A) : rsum (fun a => f a * k) l = rsum f l * k := by
  induction l with
  | nil => simp [rsum_nil]
  | cons a l ih => simp only [rsum_cons, ih]; ring
theorem rsum_le {A : Type} {f g : A → ℝ} {l : List A} (h : ∀ a ∈ l, f a ≤ g a) : rsum f l ≤ rsum g l := by
  induction l with
  | nil => exact le_refl _
  | cons a l ih =>
    rw [rsum_cons, rsum_cons]
    exact add_le_add (h a List.mem_cons_self) (ih fun x hx => h x (List.mem_cons_of_mem _ hx))
theorem rsum_zero {A : Type} {f : A → ℝ} {l : List A} (h : ∀ a ∈ l, f a = 0) : rsum f l = 0 := by
  induction l with
  | nil => rfl
  | cons a l ih => rw [rsum_cons, h a List.mem_cons_self, ih fun x hx => h x (List.mem_cons_of_mem _ hx), add_zero]
theorem rsum_nonneg {A : Type} {f : A → ℝ} {l : List A} (h : ∀ a ∈ l, 0 ≤ f a) : 0 ≤ rsum f l := by
  have := rsum_le (f := fun _ => 0) h
  rwa [rsum_zero (fun _ _ => rfl)] at this
theorem rsum_pos {A : Type} {f : A → ℝ} {l : List A} (h : ∀ a ∈ l, 0 < f a) (hl : l ≠ []) : 0 < rsum f l := by
  cases l with
  | nil => exact absurd rfl hl
  | cons a l =>
    rw [rsum_cons]
    have := h a List.mem_cons_self
    have := rsum_nonneg (l := l) fun x hx => (h x (List.mem_cons_of_mem _ hx)).le
    linarith
theorem rsum_comm {A B : Type} (f : A → B → ℝ) (l : List A) (m : List B) :
    rsum (fun a => rsum (f a) m) l = rsum (fun b => rsum (fun a => f a b) l) m := by
  induction l with
  | nil => rw [rsum_nil, rsum_zero]; intro b _; rfl
  | cons a l ih =>
    rw [rsum_cons, ih, ← rsum_add]
    exact rsum_congr (fun b _ => (rsum_cons (fun a => f a b) a l).symm)
theorem rsum_single {A : Type} [DecidableEq A] (a : A) (c : ℝ) {l : List A} (hn : l.Nodup) (ha : a ∈ l) :
    rsum (fun x => if x = a then c else 0) l = c := by
  induction l with
  | nil => cases ha
  | cons b l ih =>
    obtain ⟨h1, h2⟩ := List.nodup_cons.1 hn
    rw [rsum_cons]
    rcases List.mem_cons.1 ha with rfl | ha
    · rw [if_pos rfl, rsum_zero, add_zero]
      intro x hx
      rw [if_neg]; rintro rfl; exact h1 hx
    · rw [if_neg (by rintro rfl; exact h1 ha), ih h2 ha, zero_add]
theorem rsum_append {A : Type} (f : A → ℝ) (l m : List A) : rsum f (l ++ m) = rsum f l + rsum f m := by
  simp [rsum]
theorem rsum_map {A B : Type} (f : B → ℝ) (g : A → B) (l : List A) : rsum f (l.map g) = rsum (fun a => f (g a)) l := by
  simp [rsum, Function.comp_def]
theorem rsum_flatMap {A B : Type} (f : B → ℝ) (g : A → List B) (l : List A) :
    rsum f (l.flatMap g) = rsum (fun a => rsum f (g a)) l := by
  induction l with
  | nil => rfl
  | cons a l ih => rw [List.flatMap_cons, rsum_append, rsum_cons, ih]

variable {K G : Type} [DecidableEq K] [DecidableEq G]

/-- A slot: its weight and its options. -/
abbrev Slot (K : Type) := ℝ × List (List K)

/-- Probability of an option. -/
def optP (θ : K → ℝ) (o : List K) : ℝ := (o.map θ).prod

/-- Probability of a slot. -/
def slotP (θ : K → ℝ) (s : Slot K) : ℝ := rsum (optP θ) s.2

/-- Weighted log-likelihood. -/
noncomputable def logLik (θ : K → ℝ) (sl : List (Slot K)) : ℝ := rsum (fun s => s.1 * log (slotP θ s)) sl

/-- Expected number of uses of a parameter. -/
noncomputable def expCount (θ : K → ℝ) (sl : List (Slot K)) (u : K) : ℝ :=
  rsum (fun s => s.1 * rsum (fun o => optP θ o / slotP θ s * (o.count u : ℝ)) s.2) sl

omit [DecidableEq K] in
theorem optP_pos {θ : K → ℝ} {o : List K} (h : ∀ u ∈ o, 0 < θ u) : 0 < optP θ o := by
  unfold optP
  induction o with
  | nil => simp
  | cons a o ih =>
    rw [List.map_cons, List.prod_cons]
    exact mul_pos (h a List.mem_cons_self) (ih fun u hu => h u (List.mem_cons_of_mem _ hu))

omit [DecidableEq K] in
theorem log_optP {θ : K → ℝ} {o : List K} (h : ∀ u ∈ o, 0 < θ u) : log (optP θ o) = rsum (fun u => log (θ u)) o := by
  unfold optP
  induction o with
  | nil => simp [rsum_nil]
  | cons a o ih =>
    have h2 : ∀ u ∈ o, 0 < θ u := fun u hu => h u (List.mem_cons_of_mem _ hu)
    have h3 : (o.map θ).prod ≠ 0 := (optP_pos h2).ne'
    rw [List.map_cons, List.prod_cons, log_mul (h a List.mem_cons_self).ne' h3, ih h2, rsum_cons]

/-- A sum over a list as a sum over different elements. -/
theorem rsum_counts (f : K → ℝ) {U : List K} (hU : U.Nodup) {o : List K} (ho : ∀ u ∈ o, u ∈ U) :
    rsum f o = rsum (fun u => (o.count u : ℝ) * f u) U := by
  induction o with
  | nil => rw [rsum_nil, rsum_zero]; intro u _; simp
  | cons a o ih =>
    rw [rsum_cons, ih (fun u hu => ho u (List.mem_cons_of_mem _ hu)),
      ← rsum_single a (f a) hU (ho a List.mem_cons_self), ← rsum_add]
    apply rsum_congr
    intro u _
    rw [List.count_cons]
    by_cases h : u = a
    · subst h; simp; ring
    · have : ¬ a = u := fun e => h e.symm
      simp [h, this]

/-- Jensen's inequality for the logarithm. -/
theorem jensen {A : Type} (γ r : A → ℝ) (l : List A) (hr : ∀ a ∈ l, 0 < r a) (hγ : ∀ a ∈ l, 0 < γ a)
    (h1 : rsum γ l = 1) : rsum (fun a => γ a * log (r a)) l ≤ log (rsum (fun a => γ a * r a) l) := by
  have hl : l ≠ [] := by rintro rfl; rw [rsum_nil] at h1; norm_num at h1
  obtain ⟨M, hM⟩ : ∃ M, M = rsum (fun a => γ a * r a) l := ⟨_, rfl⟩
  have hM0 : 0 < M := by rw [hM]; exact rsum_pos (fun a ha => mul_pos (hγ a ha) (hr a ha)) hl
  rw [← hM]
  have h : rsum (fun a => γ a * log (r a)) l ≤ rsum (fun a => γ a * log M + (γ a * r a * M⁻¹ - γ a)) l := by
    apply rsum_le
    intro a ha
    have h2 : log (r a / M) ≤ r a / M - 1 := log_le_sub_one_of_pos (div_pos (hr a ha) hM0)
    rw [log_div (hr a ha).ne' hM0.ne'] at h2
    have := mul_le_mul_of_nonneg_left h2 (hγ a ha).le
    rw [div_eq_mul_inv] at this
    nlinarith
  rw [rsum_add, rsum_sub, rsum_mul_right, rsum_mul_right, h1, ← hM, mul_inv_cancel₀ hM0.ne'] at h
  linarith

/-- The improvement of a slot. -/
theorem slot_gain {θ θ' : K → ℝ} {U : List K} (hU : U.Nodup) (s : Slot K) (hne : s.2 ≠ [])
    (hk : ∀ o ∈ s.2, ∀ u ∈ o, u ∈ U) (hθ : ∀ u ∈ U, 0 < θ u) (hθ' : ∀ u ∈ U, 0 < θ' u) :
    rsum (fun u => rsum (fun o => optP θ o / slotP θ s * (o.count u : ℝ)) s.2 * (log (θ' u) - log (θ u))) U ≤
      log (slotP θ' s) - log (slotP θ s) := by
  have hp : ∀ o ∈ s.2, 0 < optP θ o := fun o ho => optP_pos fun u hu => hθ u (hk o ho u hu)
  have hp' : ∀ o ∈ s.2, 0 < optP θ' o := fun o ho => optP_pos fun u hu => hθ' u (hk o ho u hu)
  have hP : 0 < slotP θ s := rsum_pos hp hne
  have hP' : 0 < slotP θ' s := rsum_pos hp' hne
  have hj := jensen (fun o => optP θ o / slotP θ s) (fun o => optP θ' o / optP θ o) s.2
    (fun o ho => div_pos (hp' o ho) (hp o ho)) (fun o ho => div_pos (hp o ho) hP) (by
      simp only [div_eq_mul_inv]
      rw [rsum_mul_right]
      exact mul_inv_cancel₀ hP.ne')
  have e1 : rsum (fun o => optP θ o / slotP θ s * (optP θ' o / optP θ o)) s.2 = slotP θ' s / slotP θ s := by
    rw [div_eq_mul_inv (slotP θ' s), show slotP θ' s = rsum (optP θ') s.2 from rfl, ← rsum_mul_right]
    apply rsum_congr
    intro o ho
    have := (hp o ho).ne'
    field_simp
  rw [e1, log_div hP'.ne' hP.ne'] at hj
  refine le_trans (le_of_eq ?_) hj
  rw [rsum_congr (f := fun u => rsum (fun o => optP θ o / slotP θ s * (o.count u : ℝ)) s.2 * (log (θ' u) - log (θ u)))
    (g := fun u => rsum (fun o => optP θ o / slotP θ s * ((o.count u : ℝ) * (log (θ' u) - log (θ u)))) s.2)
    (fun u _ => by rw [← rsum_mul_right]; exact rsum_congr fun o _ => by ring)]
  rw [rsum_comm]
  apply rsum_congr
  intro o ho
  rw [rsum_mul, ← rsum_counts (fun u => log (θ' u) - log (θ u)) hU (hk o ho), rsum_sub,
    log_div (hp' o ho).ne' (hp o ho).ne', log_optP (fun u hu => hθ' u (hk o ho u hu)),
    log_optP (fun u hu => hθ u (hk o ho u hu))]

/-- The inequality of EM: if the new value of each parameter is its expected count divided by the sum `C` of the expected
counts of the parameters of its group, and the old values of each group add up to at most one, the likelihood does
not decrease. -/
theorem em_monotone {θ θ' : K → ℝ} (grp : K → G) (C : G → ℝ) (sl : List (Slot K)) {U : List K} (hU : U.Nodup)
    (hw : ∀ s ∈ sl, 0 ≤ s.1) (hne : ∀ s ∈ sl, s.2 ≠ []) (hk : ∀ s ∈ sl, ∀ o ∈ s.2, ∀ u ∈ o, u ∈ U)
    (hθ : ∀ u ∈ U, 0 < θ u) (hθ' : ∀ u ∈ U, 0 < θ' u) (hC : ∀ u ∈ U, θ' u * C (grp u) = expCount θ sl u)
    (hC0 : ∀ u ∈ U, 0 ≤ C (grp u))
    (hsum : ∀ g, C g = rsum (fun u => if grp u = g then expCount θ sl u else 0) U)
    (hone : ∀ g, rsum (fun u => if grp u = g then θ u else 0) U ≤ 1) :
    logLik θ sl ≤ logLik θ' sl := by
  -- lower bound of the difference
  have h1 : rsum (fun u => expCount θ sl u * (log (θ' u) - log (θ u))) U ≤ logLik θ' sl - logLik θ sl := by
    unfold logLik
    rw [← rsum_sub]
    have : rsum (fun u => expCount θ sl u * (log (θ' u) - log (θ u))) U =
        rsum (fun s => s.1 * rsum (fun u => rsum (fun o => optP θ o / slotP θ s * (o.count u : ℝ)) s.2 *
          (log (θ' u) - log (θ u))) U) sl := by
      have e : ∀ s : Slot K, s.1 * rsum (fun u => rsum (fun o => optP θ o / slotP θ s * (o.count u : ℝ)) s.2 *
          (log (θ' u) - log (θ u))) U = rsum (fun u => s.1 * rsum (fun o => optP θ o / slotP θ s * (o.count u : ℝ)) s.2 *
          (log (θ' u) - log (θ u))) U := by
        intro s
        rw [← rsum_mul]; exact rsum_congr fun u _ => by ring
      simp only [e]
      rw [rsum_comm]
      apply rsum_congr
      intro u _
      unfold expCount
      rw [← rsum_mul_right]
    rw [this]
    apply rsum_le
    intro s hs
    rw [← mul_sub]
    exact mul_le_mul_of_nonneg_left (slot_gain hU s (hne s hs) (hk s hs) hθ hθ') (hw s hs)
  -- the bound is nonnegative
  have h2 : rsum (fun u => expCount θ sl u - C (grp u) * θ u) U ≤
      rsum (fun u => expCount θ sl u * (log (θ' u) - log (θ u))) U := by
    apply rsum_le
    intro u hu
    have a := hθ u hu
    have b := hθ' u hu
    have l := log_le_sub_one_of_pos (div_pos a b)
    rw [log_div a.ne' b.ne'] at l
    rw [← hC u hu]
    have hc : 0 ≤ θ' u * C (grp u) := mul_nonneg b.le (hC0 u hu)
    have := mul_le_mul_of_nonneg_left l hc
    have e : θ' u * C (grp u) * (θ u / θ' u - 1) = C (grp u) * θ u - θ' u * C (grp u) := by field_simp
    rw [e] at this
    linarith
  have h3 : 0 ≤ rsum (fun u => expCount θ sl u - C (grp u) * θ u) U := by
    have hGs : ∀ f : K → ℝ, rsum f U = rsum (fun g => rsum (fun u => if grp u = g then f u else 0) U) (U.map grp).dedup := by
      intro f
      rw [rsum_comm]
      apply rsum_congr
      intro u hu
      refine Eq.trans (rsum_single (grp u) (f u) (List.nodup_dedup (U.map grp))
        (List.mem_dedup.2 (List.mem_map_of_mem hu))).symm ?_
      apply rsum_congr
      intro g _
      by_cases h : g = grp u
      · simp [h]
      · have h' : ¬ grp u = g := fun e => h e.symm
        simp [h, h']
    rw [rsum_sub, hGs (fun u => C (grp u) * θ u), hGs (expCount θ sl), sub_nonneg]
    apply rsum_le
    intro g hg
    rw [← hsum g]
    have hg0 : 0 ≤ C g := by
      obtain ⟨u, hu, rfl⟩ := List.mem_map.1 (List.mem_dedup.1 hg)
      exact hC0 u hu
    have e : rsum (fun u => if grp u = g then C (grp u) * θ u else 0) U =
        C g * rsum (fun u => if grp u = g then θ u else 0) U := by
      rw [← rsum_mul]
      apply rsum_congr
      intro u _
      split
      · rename_i h; rw [h]
      · ring
    rw [e]
    have := mul_le_mul_of_nonneg_left (hone g) hg0
    linarith
  linarith

end Thot.Ibm
