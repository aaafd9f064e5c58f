import Verif.Search.Model

/-!
Property C80: `extract_gaps` returns exactly the maximal runs of uncovered source positions, from left to right, and
`get_num_gaps` their number.
-/
namespace Thot.Search
open Thot.Meta (Segm)

/-- `s` is a maximal run of uncovered positions among `1 … n`. -/
structure MaxGap (n : Nat) (cov : Nat → Bool) (s : Segm) : Prop where
  first : 1 ≤ s.1
  order : s.1 ≤ s.2
  last : s.2 ≤ n
  free : ∀ j, s.1 ≤ j → j ≤ s.2 → cov j = false
  left : s.1 = 1 ∨ cov (s.1 - 1) = true
  right : s.2 = n ∨ cov (s.2 + 1) = true

theorem gapsLoop_mem (n : Nat) (cov : Nat → Bool) : ∀ (m j : Nat) (o : Option Nat), j + m = n + 1 → 1 ≤ j →
    (o = none → j = 1 ∨ cov (j - 1) = true) →
    (∀ f, o = some f → 1 ≤ f ∧ f < j ∧ (∀ i, f ≤ i → i < j → cov i = false) ∧ (f = 1 ∨ cov (f - 1) = true)) →
    ∀ s, s ∈ gapsLoop cov m j o ↔ MaxGap n cov s ∧ o.getD j ≤ s.1
  | 0, j, none, hj, h1, hn, _, s => by
    simp only [gapsLoop, List.not_mem_nil, Option.getD_none, false_iff]
    rintro ⟨g, hs⟩
    have := g.order; have := g.last; omega
  | 0, j, some f, hj, h1, _, hf, s => by
    obtain ⟨hf1, hfj, hfree, hleft⟩ := hf f rfl
    simp only [gapsLoop, List.mem_singleton, Option.getD_some]
    constructor
    · rintro rfl
      refine ⟨⟨hf1, (by simp; omega), (by simp; omega), fun i hi hi' => hfree i hi (by simp at hi'; omega), hleft,
        Or.inl (by simp; omega)⟩, by simp⟩
    · rintro ⟨g, hs⟩
      have g2 := g.order; have g3 := g.last
      have e1 : s.1 = f := by
        rcases g.left with h | h
        · omega
        · rcases Nat.lt_or_ge f s.1 with h' | h'
          · have := hfree (s.1 - 1) (by omega) (by omega); simp_all
          · omega
      have e2 : s.2 = j - 1 := by
        rcases g.right with h | h
        · omega
        · rcases Nat.lt_or_ge (s.2 + 1) j with h' | h'
          · have := hfree (s.2 + 1) (by omega) (by omega); simp_all
          · omega
      exact Prod.ext e1 e2
  | m + 1, j, none, hj, h1, hn, _, s => by
    unfold gapsLoop
    split
    · rename_i hc
      rw [gapsLoop_mem n cov m (j + 1) none (by omega) (by omega) (fun _ => Or.inr (by simpa using hc))
        (fun f h => by cases h) s]
      simp only [Option.getD_none]
      constructor
      · rintro ⟨g, hs⟩; exact ⟨g, by omega⟩
      · rintro ⟨g, hs⟩
        refine ⟨g, ?_⟩
        rcases Nat.lt_or_ge j s.1 with h | h
        · omega
        · have : s.1 = j := by omega
          have := g.free s.1 (Nat.le_refl _) g.order
          simp_all
    · rename_i hc
      have hc' : cov j = false := by simpa using hc
      rw [gapsLoop_mem n cov m (j + 1) (some j) (by omega) (by omega) (fun h => by cases h)
        (fun f h => by
          cases h
          exact ⟨h1, by omega, fun i hi hi' => by rw [show i = j by omega]; exact hc', hn rfl⟩) s]
      simp
  | m + 1, j, some f, hj, h1, _, hf, s => by
    obtain ⟨hf1, hfj, hfree, hleft⟩ := hf f rfl
    unfold gapsLoop
    split
    · rename_i hc
      rw [List.mem_cons, gapsLoop_mem n cov m (j + 1) none (by omega) (by omega) (fun _ => Or.inr (by simpa using hc))
        (fun f h => by cases h) s]
      simp only [Option.getD_none, Option.getD_some]
      constructor
      · rintro (rfl | ⟨g, hs⟩)
        · exact ⟨⟨hf1, by simp; omega, by simp; omega, fun i hi hi' => hfree i hi (by simp at hi'; omega), hleft,
            Or.inr (by simp; rw [show j - 1 + 1 = j by omega]; exact hc)⟩, by simp⟩
        · exact ⟨g, by omega⟩
      · rintro ⟨g, hs⟩
        have g2 := g.order
        rcases Nat.lt_or_ge j s.1 with h | h
        · exact Or.inr ⟨g, by omega⟩
        · refine Or.inl ?_
          have hsj : s.1 ≠ j := by
            intro e
            have := g.free s.1 (Nat.le_refl _) g.order
            rw [e] at this; simp_all
          have e1 : s.1 = f := by
            rcases g.left with h' | h'
            · omega
            · rcases Nat.lt_or_ge f s.1 with h'' | h''
              · have := hfree (s.1 - 1) (by omega) (by omega); simp_all
              · omega
          have e3 : s.2 < j := by
            rcases Nat.lt_or_ge s.2 j with h' | h'
            · exact h'
            · have := g.free j (by omega) h'; simp_all
          have e2 : s.2 = j - 1 := by
            rcases g.right with h' | h'
            · omega
            · rcases Nat.lt_or_ge (s.2 + 1) j with h'' | h''
              · have := hfree (s.2 + 1) (by omega) h''; simp_all
              · omega
          exact Prod.ext e1 e2
    · rename_i hc
      have hc' : cov j = false := by simpa using hc
      rw [gapsLoop_mem n cov m (j + 1) (some f) (by omega) (by omega) (fun h => by cases h)
        (fun f' h => by
          cases h
          refine ⟨hf1, by omega, fun i hi hi' => ?_, hleft⟩
          rcases Nat.lt_or_ge i j with h | h
          · exact hfree i hi h
          · rw [show i = j by omega]; exact hc') s]
      simp

theorem gapsLoop_sorted (cov : Nat → Bool) : ∀ (m j : Nat) (o : Option Nat), (∀ f, o = some f → f < j) →
    (gapsLoop cov m j o).Pairwise (fun a b => a.2 + 1 < b.1) ∧ ∀ s ∈ gapsLoop cov m j o, o.getD j ≤ s.1
  | 0, j, none, _ => by simp [gapsLoop]
  | 0, j, some f, _ => by simp [gapsLoop]
  | m + 1, j, none, _ => by
    unfold gapsLoop
    split
    · have ⟨h1, h2⟩ := gapsLoop_sorted cov m (j + 1) none (by simp)
      exact ⟨h1, fun s hs => by have := h2 s hs; simp at this ⊢; omega⟩
    · have ⟨h1, h2⟩ := gapsLoop_sorted cov m (j + 1) (some j) (by simp)
      exact ⟨h1, fun s hs => by have := h2 s hs; simp at this ⊢; omega⟩
  | m + 1, j, some f, hf => by
    have hfj := hf f rfl
    unfold gapsLoop
    split
    · have ⟨h1, h2⟩ := gapsLoop_sorted cov m (j + 1) none (by simp)
      refine ⟨List.pairwise_cons.2 ⟨fun s hs => ?_, h1⟩, fun s hs => ?_⟩
      · have := h2 s hs; simp at this ⊢; omega
      · rcases List.mem_cons.1 hs with rfl | hs
        · simp
        · have := h2 s hs; simp at this ⊢; omega
    · have ⟨h1, h2⟩ := gapsLoop_sorted cov m (j + 1) (some f) (by intro f' h; cases h; omega)
      exact ⟨h1, fun s hs => by have := h2 s hs; simp at this ⊢; omega⟩

theorem numGapsLoop_eq (cov : Nat → Bool) : ∀ (m j : Nat) (o : Option Nat) (res : Nat),
    numGapsLoop cov m j o.isSome res = res + (gapsLoop cov m j o).length
  | 0, j, none, res => by simp [numGapsLoop, gapsLoop]
  | 0, j, some f, res => by simp [numGapsLoop, gapsLoop]
  | m + 1, j, none, res => by
    have h1 := numGapsLoop_eq cov m (j + 1) none res
    have h2 := numGapsLoop_eq cov m (j + 1) (some j) res
    unfold numGapsLoop gapsLoop
    cases hc : cov j <;> simp_all
  | m + 1, j, some f, res => by
    have h1 := numGapsLoop_eq cov m (j + 1) none (res + 1)
    have h2 := numGapsLoop_eq cov m (j + 1) (some f) res
    unfold numGapsLoop gapsLoop
    cases hc : cov j <;> simp_all
    omega

/-- The gaps extracted are exactly the maximal uncovered runs. -/
theorem C80_gaps (n : Nat) (cov : Nat → Bool) (s : Segm) : s ∈ extractGaps n cov ↔ MaxGap n cov s := by
  have := gapsLoop_mem n cov n 1 none (by omega) (by omega) (fun _ => Or.inl rfl) (fun f h => by cases h) s
  rw [extractGaps, this]
  constructor
  · exact fun h => h.1
  · exact fun h => ⟨h, h.first⟩

/-- They are extracted from left to right, without repetition. -/
theorem C80_sorted (n : Nat) (cov : Nat → Bool) : (extractGaps n cov).Pairwise (fun a b => a.2 + 1 < b.1) :=
  (gapsLoop_sorted cov n 1 none (by simp)).1

/-- Every uncovered position lies in one of them. -/
theorem C80_cover (n : Nat) (cov : Nat → Bool) (j : Nat) (h1 : 1 ≤ j) (hn : j ≤ n) (hc : cov j = false) :
    ∃ s ∈ extractGaps n cov, s.1 ≤ j ∧ j ≤ s.2 := by
  have hl : ∀ k, k < j → ∃ f, 1 ≤ f ∧ f ≤ j ∧ (∀ i, f ≤ i → i ≤ j → cov i = false) ∧ (f = 1 ∨ cov (f - 1) = true) ∨
      (∀ i, j - k ≤ i → i ≤ j → cov i = false) := by
    intro k hk
    induction k with
    | zero => exact ⟨0, Or.inr fun i h h' => by rw [show i = j by omega]; exact hc⟩
    | succ k ih =>
      obtain ⟨f, ⟨h1, h2, h3, h4⟩ | h⟩ := ih (by omega)
      · exact ⟨f, Or.inl ⟨h1, h2, h3, h4⟩⟩
      · cases hc' : cov (j - (k + 1)) with
        | true => exact ⟨j - k, Or.inl ⟨by omega, by omega, h, Or.inr (by rw [show j - k - 1 = j - (k + 1) by omega]; exact hc')⟩⟩
        | false =>
          refine ⟨0, Or.inr fun i hi hi' => ?_⟩
          rcases Nat.lt_or_ge i (j - k) with h' | h'
          · rw [show i = j - (k + 1) by omega]; exact hc'
          · exact h i h' hi'
  have hr : ∀ k, j + k ≤ n → ∃ t, j ≤ t ∧ t ≤ n ∧ (∀ i, j ≤ i → i ≤ t → cov i = false) ∧ (t = n ∨ cov (t + 1) = true) ∨
      (∀ i, j ≤ i → i ≤ j + k → cov i = false) := by
    intro k hk
    induction k with
    | zero => exact ⟨0, Or.inr fun i h h' => by rw [show i = j by omega]; exact hc⟩
    | succ k ih =>
      obtain ⟨t, ⟨h1, h2, h3, h4⟩ | h⟩ := ih (by omega)
      · exact ⟨t, Or.inl ⟨h1, h2, h3, h4⟩⟩
      · cases hc' : cov (j + (k + 1)) with
        | true => exact ⟨j + k, Or.inl ⟨by omega, by omega, h, Or.inr hc'⟩⟩
        | false =>
          refine ⟨0, Or.inr fun i hi hi' => ?_⟩
          rcases Nat.lt_or_ge (j + k) i with h' | h'
          · rw [show i = j + (k + 1) by omega]; exact hc'
          · exact h i hi h'
  have hl' : ∃ f, 1 ≤ f ∧ f ≤ j ∧ (∀ i, f ≤ i → i ≤ j → cov i = false) ∧ (f = 1 ∨ cov (f - 1) = true) := by
    obtain ⟨f, h | h⟩ := hl (j - 1) (by omega)
    · exact ⟨f, h⟩
    · exact ⟨1, by omega, h1, fun i hi hi' => h i (by omega) hi', Or.inl rfl⟩
  have hr' : ∃ t, j ≤ t ∧ t ≤ n ∧ (∀ i, j ≤ i → i ≤ t → cov i = false) ∧ (t = n ∨ cov (t + 1) = true) := by
    obtain ⟨t, h | h⟩ := hr (n - j) (by omega)
    · exact ⟨t, h⟩
    · exact ⟨n, by omega, by omega, fun i hi hi' => h i hi (by omega), Or.inl rfl⟩
  obtain ⟨f, f1, f2, f3, f4⟩ := hl'
  obtain ⟨t, t1, t2, t3, t4⟩ := hr'
  refine ⟨(f, t), (C80_gaps n cov _).2 ⟨f1, by simp; omega, t2, fun i hi hi' => ?_, f4, t4⟩, f2, t1⟩
  rcases Nat.lt_or_ge j i with h | h
  · exact t3 i (by omega) hi'
  · exact f3 i hi h

/-- `get_num_gaps` is their number. -/
theorem C80_count (n : Nat) (cov : Nat → Bool) : numGaps n cov = (extractGaps n cov).length := by
  have := numGapsLoop_eq cov n 1 none 0
  simpa [numGaps, extractGaps] using this

-- A sentence of seven words with words 3, 4 and 7 covered.
example : extractGaps 7 (fun j => j == 3 || j == 4 || j == 7) = [(1, 2), (5, 6)] := by decide
example : numGaps 7 (fun j => j == 3 || j == 4 || j == 7) = 2 := by decide

end Thot.Search
