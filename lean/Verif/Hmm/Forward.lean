import Verif.Hmm.PropsVit
/-! Proofs about the forward, alpha and beta matrices (helper lemmas; the claims are in `PropsFwd`). -/
namespace Thot.Hmm

open Thot.Sum

/-- The positions `1..n`. -/
def upto (n : Nat) : List Nat := List.range' 1 n

theorem mem_upto {n i : Nat} : i ∈ upto n ↔ 1 ≤ i ∧ i ≤ n := by
  unfold upto; rw [List.mem_range'_1]; omega

theorem upto_nodup (n : Nat) : (upto n).Nodup := List.nodup_range'

theorem upto_succ (n : Nat) : upto (n + 1) = upto n ++ [n + 1] := by
  unfold upto; rw [List.range'_concat]; simp [Nat.add_comm]

/-- All alignments of `J` target words with positions `1..n`. -/
def allAligs (n : Nat) : Nat → List (List Nat)
  | 0 => [[]]
  | J + 1 => (upto n).flatMap fun a => (allAligs n J).map fun as => a :: as

/-- Probability of the alignment `as` of the target words from position `j` on. -/
def pathProb (C : Chain) : Nat → Nat → List Nat → Rat
  | _, _, [] => 1
  | prev, j, a :: as => C.tr prev a * C.em a j * pathProb C a (j + 1) as

/-- Probability of the `m` target words from `j` on, after position `prev`. -/
def tailSum (C : Chain) (n prev j m : Nat) : Rat := sumBy (pathProb C prev j) (allAligs n m)

theorem tailSum_zero (C : Chain) (n prev j : Nat) : tailSum C n prev j 0 = 1 := by
  simp [tailSum, allAligs, sumBy, pathProb]; grind

theorem tailSum_succ (C : Chain) (n prev j m : Nat) : tailSum C n prev j (m + 1) =
    sumBy (fun a => C.tr prev a * C.em a j * tailSum C n a (j + 1) m) (upto n) := by
  unfold tailSum
  rw [allAligs, sumBy_flatMap]
  apply sumBy_congr
  intro a _
  rw [sumBy_map, ← sumBy_mul]
  rfl

/-! ### Accumulation loops -/

theorem accLoop (f : Nat → Rat) (n : Nat) (hn : 1 ≤ n) (v0 : Rat) :
    forUp n (fun (s : Rat) i => if i = 1 then f i else s + f i) v0 = sumBy f (upto n) := by
  obtain ⟨n, rfl⟩ : ∃ k, n = k + 1 := ⟨n - 1, by omega⟩
  clear hn
  induction n with
  | zero => rw [forUp_succ, forUp_zero, if_pos rfl]; simp [upto, sumBy]; grind
  | succ n ih =>
    rw [forUp_succ, ih, if_neg (by omega), upto_succ (n + 1), sumBy_append]
    simp [sumBy]; grind

/-! ### Alpha -/

/-- The alpha values. -/
def alpha (C : Chain) (n : Nat) : Nat → Nat → Rat
  | _, 0 => 0
  | i, j + 1 =>
    if j = 0 then C.tr 0 i * C.em i 1
    else sumBy (fun it => alpha C n it j * C.tr it i * C.em i (j + 1)) (upto n)

theorem alpha_one (C : Chain) (n i : Nat) : alpha C n i 1 = C.tr 0 i * C.em i 1 := by rw [alpha, if_pos rfl]

theorem alpha_succ (C : Chain) (n i : Nat) {j : Nat} (hj : j ≠ 0) :
    alpha C n i (j + 1) = sumBy (fun it => alpha C n it j * C.tr it i * C.em i (j + 1)) (upto n) := by
  rw [alpha, if_neg hj]

structure FInv (C : Chain) (n j k : Nat) (m : Mat Rat) : Prop where
  done : ∀ i j', 1 ≤ i → i ≤ n → 1 ≤ j' → (j' < j ∨ (j' = j ∧ i ≤ k)) → m i j' = alpha C n i j'

theorem fwdCell_inv {C : Chain} {n j k : Nat} {m : Mat Rat} (hj : 1 ≤ j) (h : FInv C n j k m) (hk : k < n) :
    FInv C n j (k + 1) (fwdCell C n j m (k + 1)) := by
  unfold fwdCell
  by_cases h1 : j = 1
  · rw [if_pos h1]; subst h1
    refine ⟨?_⟩
    intro i j' a1 a2 a3 a4
    by_cases hc : i = k + 1 ∧ j' = 1
    · obtain ⟨rfl, rfl⟩ := hc; rw [Mat.put_self, alpha_one]
    · rw [Mat.put_ne _ _ hc]; exact h.done i j' a1 a2 a3 (by omega)
  · rw [if_neg h1]
    obtain ⟨j, rfl⟩ : ∃ j0, j = j0 + 1 := ⟨j - 1, by omega⟩
    have hj0 : j ≠ 0 := by omega
    obtain ⟨k1, k2⟩ := forUp_inv (n := n) (f := fwdInner C (k + 1) (j + 1)) (s := m)
      (fun q m' => (∀ i' j', ¬ (i' = k + 1 ∧ j' = j + 1) → m' i' j' = m i' j') ∧
        (1 ≤ q → m' (k + 1) (j + 1) =
          sumBy (fun it => alpha C n it j * C.tr it (k + 1) * C.em (k + 1) (j + 1)) (upto q)))
      ⟨fun _ _ _ => rfl, fun h => by omega⟩
      (by
        rintro q m' hq ⟨k1, k2⟩
        have hprev : m' (q + 1) j = alpha C n (q + 1) j := by
          rw [k1 _ _ (by omega)]; exact h.done (q + 1) j (by omega) (by omega) (by omega) (Or.inl (by omega))
        unfold fwdInner
        rw [Nat.add_sub_cancel, hprev]
        refine ⟨fun i' j' hne => by rw [Mat.put_ne _ _ hne]; exact k1 i' j' hne, fun _ => ?_⟩
        rw [Mat.put_self, upto_succ, sumBy_append]
        by_cases hq0 : q = 0
        · subst hq0; rw [if_pos rfl]; simp [upto, sumBy]; grind
        · rw [if_neg (by omega), k2 (by omega)]; simp [sumBy]; grind)
    refine ⟨?_⟩
    intro i j' a1 a2 a3 a4
    by_cases hc : i = k + 1 ∧ j' = j + 1
    · obtain ⟨rfl, rfl⟩ := hc; rw [k2 (by omega), alpha_succ _ _ _ hj0]
    · rw [k1 i j' hc]; exact h.done i j' a1 a2 a3 (by omega)

theorem fwdMatrix_eq (C : Chain) (n J : Nat) {i j : Nat} (h1 : 1 ≤ i) (h2 : i ≤ n) (h3 : 1 ≤ j) (h4 : j ≤ J) :
    fwdMatrix C n J i j = alpha C n i j := by
  have : FInv C n (J + 1) 0 (fwdMatrix C n J) := by
    unfold fwdMatrix
    refine forUp_inv (fun j m => FInv C n (j + 1) 0 m) ⟨fun i j' _ _ h1 h2 => by omega⟩ ?_
    intro j m hj h
    have := forUp_inv (n := n) (f := fwdCell C n (j + 1)) (s := m) (fun k m' => FInv C n (j + 1) k m') h
      (fun k m' hk hp => fwdCell_inv (by omega) hp hk)
    exact ⟨fun i j' a1 a2 a3 a4 => this.done i j' a1 a2 a3 (by omega)⟩
  exact this.done i j h1 h2 h3 (Or.inl (by omega))

/-! ### Beta -/

theorem forDown_succ {σ : Type} (n : Nat) (f : σ → Nat → σ) (s : σ) :
    forDown (n + 1) f s = forDown n f (f s (n + 1)) := by
  unfold forDown
  rw [List.range'_concat, List.reverse_append]
  simp [Nat.add_comm]

theorem forDown_inv {σ : Type} {n : Nat} {f : σ → Nat → σ} {s : σ} (P : Nat → σ → Prop) (h0 : P n s)
    (hs : ∀ k st, k < n → P (k + 1) st → P k (f st (k + 1))) : P 0 (forDown n f s) := by
  induction n generalizing s with
  | zero => exact h0
  | succ n ih =>
    rw [forDown_succ]
    exact ih (hs n s (Nat.lt_succ_self _) h0) (fun k st hk => hs k st (by omega))

/-- Column `j` down to its first `k` cells, and the later columns, hold the probability of the rest of the sentence. -/
structure BInv (C : Chain) (n J j k : Nat) (m : Mat Rat) : Prop where
  done : ∀ i j', 1 ≤ i → i ≤ n → j' ≤ J → (j < j' ∨ (j' = j ∧ i ≤ k)) → m i j' = tailSum C n i (j' + 1) (J - j')

theorem betaCell_inv {C : Chain} {n J j k : Nat} {m : Mat Rat} (hj : j ≤ J) (h : BInv C n J j k m) (hk : k < n) :
    BInv C n J j (k + 1) (betaCell C n J j m (k + 1)) := by
  unfold betaCell
  by_cases h1 : j = J
  · rw [if_pos h1]; subst h1
    refine ⟨?_⟩
    intro i j' a1 a2 a3 a4
    by_cases hc : i = k + 1 ∧ j' = j
    · obtain ⟨rfl, rfl⟩ := hc; rw [Mat.put_self, Nat.sub_self, tailSum_zero]
    · rw [Mat.put_ne _ _ hc]; exact h.done i j' a1 a2 a3 (by omega)
  · rw [if_neg h1]
    obtain ⟨k1, k2⟩ := forUp_inv (n := n) (f := betaInner C (k + 1) j) (s := m)
      (fun q m' => (∀ i' j', ¬ (i' = k + 1 ∧ j' = j) → m' i' j' = m i' j') ∧
        (1 ≤ q → m' (k + 1) j =
          sumBy (fun it => C.tr (k + 1) it * C.em it (j + 1) * tailSum C n it (j + 1 + 1) (J - (j + 1))) (upto q)))
      ⟨fun _ _ _ => rfl, fun h => by omega⟩
      (by
        rintro q m' hq ⟨k1, k2⟩
        have hprev : m' (q + 1) (j + 1) = tailSum C n (q + 1) (j + 1 + 1) (J - (j + 1)) := by
          rw [k1 _ _ (by omega)]; exact h.done (q + 1) (j + 1) (by omega) (by omega) (by omega) (Or.inl (by omega))
        unfold betaInner
        rw [hprev]
        refine ⟨fun i' j' hne => by rw [Mat.put_ne _ _ hne]; exact k1 i' j' hne, fun _ => ?_⟩
        rw [Mat.put_self, upto_succ, sumBy_append]
        by_cases hq0 : q = 0
        · subst hq0; rw [if_pos rfl]; simp [upto, sumBy]; grind
        · rw [if_neg (by omega), k2 (by omega)]; simp [sumBy]; grind)
    refine ⟨?_⟩
    intro i j' a1 a2 a3 a4
    by_cases hc : i = k + 1 ∧ j' = j
    · obtain ⟨rfl, rfl⟩ := hc
      rw [k2 (by omega), show J - j' = (J - (j' + 1)) + 1 by omega, tailSum_succ]
    · rw [k1 i j' hc]; exact h.done i j' a1 a2 a3 (by omega)

theorem betaMatrix_eq (C : Chain) (n J : Nat) {i j : Nat} (h1 : 1 ≤ i) (h2 : i ≤ n) (h3 : 1 ≤ j) (h4 : j ≤ J) :
    betaMatrix C n J i j = tailSum C n i (j + 1) (J - j) := by
  have : BInv C n J 0 0 (betaMatrix C n J) := by
    unfold betaMatrix
    refine forDown_inv (fun j m => BInv C n J j 0 m) ⟨fun i j' _ _ h1 h2 => by omega⟩ ?_
    intro j m hj h
    have := forUp_inv (n := n) (f := betaCell C n J (j + 1)) (s := m) (fun k m' => BInv C n J (j + 1) k m') h
      (fun k m' hk hp => betaCell_inv (by omega) hp hk)
    exact ⟨fun i j' a1 a2 a3 a4 => this.done i j' a1 a2 a3 (by omega)⟩
  exact this.done i j h1 h2 h4 (Or.inl (by omega))

/-! ### Alpha times the rest -/

/-- Moving one target word from the rest to alpha. -/
theorem alpha_shift (C : Chain) (n j : Nat) (hj : j ≠ 0) (g : Nat → Rat) :
    sumBy (fun it => alpha C n it j * sumBy (fun i => C.tr it i * C.em i (j + 1) * g i) (upto n)) (upto n) =
      sumBy (fun i => alpha C n i (j + 1) * g i) (upto n) := by
  have e1 : sumBy (fun it => alpha C n it j * sumBy (fun i => C.tr it i * C.em i (j + 1) * g i) (upto n)) (upto n) =
      sumBy (fun it => sumBy (fun i => alpha C n it j * C.tr it i * C.em i (j + 1) * g i) (upto n)) (upto n) := by
    apply sumBy_congr
    intro it _
    rw [← sumBy_mul]
    exact sumBy_congr (fun i _ => by grind)
  rw [e1, sumBy_comm]
  apply sumBy_congr
  intro i _
  rw [alpha_succ _ _ _ hj, ← sumBy_mul_right]

/-- For every target position, alpha times beta adds up to the probability of the whole sentence. -/
theorem alpha_beta_total (C : Chain) (n J j : Nat) (h1 : 1 ≤ j) (h2 : j ≤ J) :
    sumBy (fun i => alpha C n i j * tailSum C n i (j + 1) (J - j)) (upto n) = tailSum C n 0 1 J := by
  obtain ⟨j, rfl⟩ : ∃ k, j = k + 1 := ⟨j - 1, by omega⟩
  clear h1
  induction j with
  | zero =>
    obtain ⟨J, rfl⟩ : ∃ k, J = k + 1 := ⟨J - 1, by omega⟩
    rw [tailSum_succ]
    exact sumBy_congr (fun i _ => by rw [alpha_one]; simp)
  | succ j ih =>
    rw [← ih (by omega), ← alpha_shift C n (j + 1) (by omega)]
    apply sumBy_congr
    intro i _
    rw [show J - (j + 1) = (J - (j + 1 + 1)) + 1 by omega, tailSum_succ]

theorem forward_eq (C : Chain) (n J : Nat) (hn : 1 ≤ n) (hJ : 1 ≤ J) : forward C n J = tailSum C n 0 1 J := by
  unfold forward fwdTotal
  rw [accLoop (fun i => fwdMatrix C n J i J) n hn, ← alpha_beta_total C n J J hJ (Nat.le_refl _)]
  apply sumBy_congr
  intro i hi
  obtain ⟨a, b⟩ := mem_upto.1 hi
  rw [fwdMatrix_eq C n J a b hJ (Nat.le_refl _), Nat.sub_self, tailSum_zero]; grind

/-! ### Posterior of one position -/

/-- Probability of the alignments of the `m` target words from `j` whose `k`-th one (from 0) is `i`. -/
def tailAt (C : Chain) (n prev j m k i : Nat) : Rat :=
  sumBy (pathProb C prev j) ((allAligs n m).filter fun as => decide (as[k]? = some i))

theorem tailAt_zero (C : Chain) (n prev j m i : Nat) (h1 : 1 ≤ i) (h2 : i ≤ n) :
    tailAt C n prev j (m + 1) 0 i = C.tr prev i * C.em i j * tailSum C n i (j + 1) m := by
  unfold tailAt
  rw [sumBy_filter, allAligs, sumBy_flatMap]
  have : ∀ a ∈ upto n, sumBy (fun as : List Nat => if decide (as[0]? = some i) = true then pathProb C prev j as else 0)
      ((allAligs n m).map fun as => a :: as) =
      if a = i then C.tr prev i * C.em i j * tailSum C n i (j + 1) m else 0 := by
    intro a _
    rw [sumBy_map]
    by_cases ha : a = i
    · subst ha
      rw [if_pos rfl]
      unfold tailSum
      rw [← sumBy_mul]
      exact sumBy_congr (fun as _ => by simp [pathProb])
    · rw [if_neg ha]
      exact sumBy_zero (fun as _ => by simp [ha])
  rw [sumBy_congr this, sumBy_single _ _ (upto_nodup n), if_pos (mem_upto.2 ⟨h1, h2⟩)]

theorem tailAt_succ (C : Chain) (n prev j m k i : Nat) : tailAt C n prev j (m + 1) (k + 1) i =
    sumBy (fun a => C.tr prev a * C.em a j * tailAt C n a (j + 1) m k i) (upto n) := by
  unfold tailAt
  rw [sumBy_filter, allAligs, sumBy_flatMap]
  apply sumBy_congr
  intro a _
  rw [sumBy_map, sumBy_filter, ← sumBy_mul]
  apply sumBy_congr
  intro as _
  rw [List.getElem?_cons_succ]
  split
  · rfl
  · grind

/-- Alpha times beta is the probability of the alignments through the position. -/
theorem alpha_beta_at (C : Chain) (n J j i : Nat) (h1 : 1 ≤ j) (h2 : j ≤ J) (hi : 1 ≤ i) (hin : i ≤ n) :
    alpha C n i j * tailSum C n i (j + 1) (J - j) = tailAt C n 0 1 J (j - 1) i := by
  by_cases hj : j = 1
  · subst hj
    obtain ⟨J, rfl⟩ : ∃ k, J = k + 1 := ⟨J - 1, by omega⟩
    rw [Nat.sub_self, tailAt_zero _ _ _ _ _ _ hi hin, alpha_one]; simp
  · -- invariant over the number of words moved
    have key : ∀ d, d + 1 ≤ j - 1 →
        sumBy (fun a => alpha C n a (d + 1) * tailAt C n a (d + 2) (J - (d + 1)) (j - 1 - (d + 1)) i) (upto n) =
          tailAt C n 0 1 J (j - 1) i := by
      intro d
      induction d with
      | zero =>
        intro _
        rw [show tailAt C n 0 1 J (j - 1) i = tailAt C n 0 1 ((J - 1) + 1) ((j - 1 - 1) + 1) i by
          rw [show J - 1 + 1 = J by omega, show j - 1 - 1 + 1 = j - 1 by omega], tailAt_succ]
        exact sumBy_congr (fun a _ => by rw [alpha_one])
      | succ d ih =>
        intro hd
        rw [← ih (by omega), ← alpha_shift C n (d + 1) (by omega)]
        apply sumBy_congr
        intro a _
        rw [show J - (d + 1) = (J - (d + 1 + 1)) + 1 by omega,
          show j - 1 - (d + 1) = (j - 1 - (d + 1 + 1)) + 1 by omega, tailAt_succ]
    have := key (j - 2) (by omega)
    rw [← this]
    rw [show j - 2 + 1 = j - 1 by omega, show j - 2 + 2 = j by omega, Nat.sub_self,
      show J - (j - 1) = (J - j) + 1 by omega]
    obtain ⟨q, rfl⟩ : ∃ q, j = q + 1 := ⟨j - 1, by omega⟩
    rw [Nat.add_sub_cancel, alpha_succ _ _ _ (by omega), ← sumBy_mul_right]
    apply sumBy_congr
    intro a _
    rw [tailAt_zero _ _ _ _ _ _ hi hin]; grind

end Thot.Hmm
