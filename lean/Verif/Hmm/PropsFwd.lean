import Verif.Hmm.Forward
/-!
Claims about probabilities of the HMM alignment model (C105-C108).

Specification: the probability of a target sentence and an alignment is the product, along the target sentence, of the
transition probability to the position and of the probability of the target word given the word at that position.
-/
namespace Thot.Hmm

open Thot.Sum

/-! ### Specification -/

/-- Probability of the target words `ts` with alignment `as`, when the previous position is `prev`. -/
def aligProb (P : Pars) (k : Kind) (src : List Nat) : Nat → List Nat → List Nat → Rat
  | prev, t :: ts, a :: as => P.aProb k prev src.length a * P.pts (wordAt src a) t * aligProb P k src a ts as
  | _, _, _ => 1

/-- All sentences of `J` words of a vocabulary with indices `0..V-1`. -/
def allSents (V : Nat) : Nat → List (List Nat)
  | 0 => [[]]
  | J + 1 => (List.range V).flatMap fun w => (allSents V J).map fun ws => w :: ws

/-- The lexical parameters of source word `s` come from training: the denominator is the sum of the numerators of the
words of the target vocabulary, and is positive. -/
def LexTrained (P : Pars) (s : Nat) : Prop :=
  ∃ d, P.lexD s = some d ∧ 0 < d ∧ sumBy (fun t => (P.lexN s t).getD 0) (List.range P.voc) = d

/-- Numerators of the null outcomes after position `p`: none if the null probability is fixed; with free null
parameters the null position is a further outcome, repeated `n` times at the sentence start. -/
def nullMass (P : Pars) (k : Kind) (n p : Nat) : Rat :=
  match k with
  | some _ => 0
  | none => if p = 0 then (n : Rat) * (P.aN 0 n (n + 1)).getD 0 else (P.aN p n (p + n)).getD 0

/-- The alignment parameters of the previous position `p` (`0..n`) for source length `n` come from training: the
denominator is the sum of the numerators, and is positive. -/
def AligTrained (P : Pars) (k : Kind) (n p : Nat) : Prop :=
  ∃ d, P.aD p n = some d ∧ 0 < d ∧
    sumBy (fun i => (P.aN p n i).getD 0) (List.range' 1 n) + nullMass P k n p = d

/-! ### Lemmas -/

theorem mem_allAligs {n J : Nat} {as : List Nat} :
    as ∈ allAligs n J ↔ as.length = J ∧ ∀ i ∈ as, 1 ≤ i ∧ i ≤ n := by
  induction J generalizing as with
  | zero =>
    simp only [allAligs, List.mem_singleton]
    constructor
    · rintro rfl; simp
    · rintro ⟨h, _⟩; exact List.length_eq_zero_iff.1 h
  | succ J ih =>
    simp only [allAligs, List.mem_flatMap, List.mem_map]
    constructor
    · rintro ⟨a, ha, as', h1, rfl⟩
      obtain ⟨h2, h3⟩ := ih.1 h1
      refine ⟨by simp [h2], ?_⟩
      intro i hi
      rcases List.mem_cons.1 hi with rfl | hi
      · exact mem_upto.1 ha
      · exact h3 i hi
    · rintro ⟨h1, h2⟩
      cases as with
      | nil => simp at h1
      | cons a as =>
        exact ⟨a, mem_upto.2 (h2 a List.mem_cons_self), as,
          ih.2 ⟨by simpa using h1, fun i hi => h2 i (List.mem_cons_of_mem _ hi)⟩, rfl⟩

theorem nodup_allAligs (n J : Nat) : (allAligs n J).Nodup := by
  induction J with
  | zero => simp [allAligs]
  | succ J ih =>
    rw [allAligs]
    have gen : ∀ l : List Nat, l.Nodup → (l.flatMap fun a => (allAligs n J).map fun as => a :: as).Nodup := by
      intro l
      induction l with
      | nil => intro _; simp
      | cons a l ihl =>
        intro hl
        obtain ⟨h1, h2⟩ := List.nodup_cons.1 hl
        rw [List.flatMap_cons, List.nodup_append]
        refine ⟨List.Pairwise.map _ (fun x y hxy h => hxy (List.cons.inj h).2) ih, ihl h2, ?_⟩
        intro x hx y hy hxy
        subst hxy
        obtain ⟨as, _, rfl⟩ := List.mem_map.1 hx
        obtain ⟨b, hb, hy⟩ := List.mem_flatMap.1 hy
        obtain ⟨bs, _, he⟩ := List.mem_map.1 hy
        have := (List.cons.inj he).1
        subst this; exact h1 hb
    exact gen _ (upto_nodup n)

theorem pathProb_chain {P : Pars} {k : Kind} {src : List Nat} (hnn : NoNull src) (pre ts : List Nat) (prev : Nat)
    (as : List Nat) (hl : as.length = ts.length) (hb : ∀ i ∈ as, 1 ≤ i ∧ i ≤ 2 * src.length) :
    pathProb (P.chain k (extendWithNull src) (pre ++ ts)) prev (pre.length + 1) as = aligProb P k src prev ts as := by
  induction ts generalizing pre prev as with
  | nil =>
    have : as = [] := List.length_eq_zero_iff.1 hl
    subst this; rfl
  | cons t ts ih =>
    cases as with
    | nil => simp at hl
    | cons a as =>
      rw [pathProb, aligProb]
      have h1 := ih (pre ++ [t]) a as (by simpa using hl) (fun i hi => hb i (List.mem_cons_of_mem _ hi))
      rw [List.append_assoc, List.singleton_append, List.length_append, List.length_singleton] at h1
      rw [h1]
      have h2 := hb a List.mem_cons_self
      simp only [Pars.chain, getSrcLen_extend hnn, word_extend h2.1 h2.2]
      rw [show (pre ++ t :: ts).getD (pre.length + 1 - 1) 0 = t by simp]

theorem tailSum_chain {P : Pars} {k : Kind} {src : List Nat} (hnn : NoNull src) (trg : List Nat) :
    tailSum (P.chain k (extendWithNull src) trg) (2 * src.length) 0 1 trg.length =
      sumBy (fun raw => aligProb P k src 0 trg raw) (allAligs (2 * src.length) trg.length) := by
  unfold tailSum
  apply sumBy_congr
  intro as has
  obtain ⟨h1, h2⟩ := mem_allAligs.1 has
  exact pathProb_chain hnn [] trg 0 as h1 h2

/-! ### C105: the sentence probability -/

/-- **C105**: for two sentences of acceptable length the model's probability is the probability of the lengths times
the sum over all alignments (each alignment once) of the probability of the target sentence with that alignment. -/
theorem C105_forward_sum (P : Pars) (k : Kind) (slm : Nat → Nat → Rat) (src trg : List Nat)
    (hnn : NoNull src) (hs : Fits src) (ht : Fits trg) :
    ∃ aligs : List (List Nat), aligs.Nodup ∧ (∀ raw, raw ∈ aligs ↔ IsAlig src trg raw) ∧
      calcProb P k slm src trg =
        slm src.length trg.length * sumBy (fun raw => aligProb P k src 0 trg raw) aligs := by
  refine ⟨allAligs (2 * src.length) trg.length, nodup_allAligs _ _, fun raw => mem_allAligs, ?_⟩
  unfold calcProb
  rw [if_pos (by rw [(fits_iff src).2 hs, (fits_iff trg).2 ht]; rfl), length_extend,
    forward_eq _ _ _ (by have := hs.1; omega) ht.1, tailSum_chain hnn]

/-- Sentences that are empty or too long have probability zero. -/
theorem C105_rejected (P : Pars) (k : Kind) (slm : Nat → Nat → Rat) (src trg : List Nat) (h : ¬ (Fits src ∧ Fits trg)) :
    calcProb P k slm src trg = 0 := by
  unfold calcProb
  rw [if_neg]
  intro hh
  rw [Bool.and_eq_true, fits_iff, fits_iff] at hh
  exact h hh

/-- Parameters of the examples: one source word, two target words, one source position. -/
def exPars : Pars :=
  { lexN := fun s t => if s = 1 then (if t = 0 then some 1 else some 3) else if s = 0 then some 1 else none
    lexD := fun s => if s = 1 then some 4 else if s = 0 then some 2 else none
    aN := fun p n i => if n = 1 ∧ p ≤ 1 ∧ 1 ≤ i ∧ i ≤ 2 then some 1 else none
    aD := fun p n => if n = 1 ∧ p ≤ 1 then some 2 else none
    lam := 1/2, mu := 1/10, voc := 2 }

example : calcProb exPars none (fun _ _ => 1) [1] [0, 1] = 63/256 := by decide +kernel

/-! ### C106: posterior probabilities -/

/-- The alignments that align the target word `j` (from 1) with position `i`. -/
def alignsAt (i j : Nat) (raw : List Nat) : Bool := decide (raw[j - 1]? = some i)

/-- **C106**: the expected value computed in training for positions `i` and `j` is the posterior probability that the
target word `j` is aligned with position `i`: the probability of the alignments through it divided by the probability
of all of them, forced into the interval of admitted values; the posteriors of a target word add up to one. -/
theorem C106_posterior (P : Pars) (k : Kind) (src trg : List Nat) (lo hi : Rat) (j : Nat)
    (hlh : lo ≤ hi) (hnn : NoNull src) (hs : Fits src) (hj1 : 1 ≤ j) (hj : j ≤ trg.length) :
    ∃ aligs : List (List Nat), aligs.Nodup ∧ (∀ raw, raw ∈ aligs ↔ IsAlig src trg raw) ∧
      (∀ i, 1 ≤ i → i ≤ 2 * src.length →
        lanji (P.chain k (extendWithNull src) trg) lo hi (2 * src.length) trg.length i j =
          (let post := sumBy (aligProb P k src 0 trg) (aligs.filter (alignsAt i j)) /
            sumBy (aligProb P k src 0 trg) aligs
          if hi < post then hi else if post < lo then lo else post)) ∧
      (sumBy (aligProb P k src 0 trg) aligs ≠ 0 →
        sumBy (fun i => sumBy (aligProb P k src 0 trg) (aligs.filter (alignsAt i j)) /
            sumBy (aligProb P k src 0 trg) aligs) (List.range' 1 (2 * src.length)) = 1) := by
  refine ⟨allAligs (2 * src.length) trg.length, nodup_allAligs _ _, fun raw => mem_allAligs, ?_⟩
  obtain ⟨C, hC⟩ : ∃ C, C = P.chain k (extendWithNull src) trg := ⟨_, rfl⟩
  obtain ⟨n, hn⟩ : ∃ n, n = 2 * src.length := ⟨_, rfl⟩
  have hn1 : 1 ≤ n := by have := hs.1; omega
  have htot : tailSum C n 0 1 trg.length = sumBy (aligProb P k src 0 trg) (allAligs n trg.length) := by
    subst hC hn; exact tailSum_chain hnn trg
  have hat : ∀ i, tailAt C n 0 1 trg.length (j - 1) i =
      sumBy (aligProb P k src 0 trg) ((allAligs n trg.length).filter (alignsAt i j)) := by
    intro i
    unfold tailAt alignsAt
    apply sumBy_congr
    intro as has
    obtain ⟨h1, h2⟩ := mem_allAligs.1 (List.mem_filter.1 has |>.1)
    subst hC hn
    exact pathProb_chain hnn [] trg 0 as h1 h2
  have hnum : ∀ i, 1 ≤ i → i ≤ n → lanjiNum C n trg.length i j = tailAt C n 0 1 trg.length (j - 1) i := by
    intro i h1 h2
    unfold lanjiNum
    rw [fwdMatrix_eq C n _ h1 h2 hj1 hj, betaMatrix_eq C n _ h1 h2 hj1 hj, alpha_beta_at C n _ j i hj1 hj h1 h2]
  have hsum : sumBy (fun i => tailAt C n 0 1 trg.length (j - 1) i) (upto n) = tailSum C n 0 1 trg.length := by
    rw [← alpha_beta_total C n trg.length j hj1 hj]
    apply sumBy_congr
    intro i hi'
    obtain ⟨a, b⟩ := mem_upto.1 hi'
    rw [alpha_beta_at C n _ j i hj1 hj a b]
  rw [← hn]
  refine ⟨?_, ?_⟩
  · intro i h1 h2
    rw [← hC]
    unfold lanji sumNums
    rw [accLoop (fun i => lanjiNum C n trg.length i j) n hn1, hnum i h1 h2]
    have e : sumBy (fun i => lanjiNum C n trg.length i j) (upto n) = tailSum C n 0 1 trg.length := by
      rw [← hsum]
      apply sumBy_congr
      intro i' hi'
      obtain ⟨a, b⟩ := mem_upto.1 hi'
      exact hnum i' a b
    rw [e, htot, hat]
    unfold clip
    dsimp only
    generalize sumBy (aligProb P k src 0 trg) ((allAligs n trg.length).filter (alignsAt i j)) /
      sumBy (aligProb P k src 0 trg) (allAligs n trg.length) = x
    by_cases hx : hi < x
    · rw [if_pos (show x > hi from hx), if_neg (Rat.not_lt.2 hlh), if_pos hx]
    · rw [if_neg (show ¬ x > hi from hx), if_neg hx]
  · intro hne
    have e : sumBy (fun i => sumBy (aligProb P k src 0 trg) ((allAligs n trg.length).filter (alignsAt i j)) /
        sumBy (aligProb P k src 0 trg) (allAligs n trg.length)) (List.range' 1 n) =
        sumBy (fun i => tailAt C n 0 1 trg.length (j - 1) i * (tailSum C n 0 1 trg.length)⁻¹) (upto n) := by
      apply sumBy_congr
      intro i _
      rw [hat, htot, Rat.div_def]
    rw [e, sumBy_mul_right, hsum]
    rw [htot]
    exact Rat.mul_inv_cancel _ hne

example : lanji (exPars.chain none (extendWithNull [1]) [0, 1]) (1/1000) (99/100) 2 2 1 2 = 5/9 := by decide +kernel

/-! ### C107: distributions -/

theorem upto_double (n : Nat) : upto (2 * n) = upto n ++ (upto n).map fun i => n + i := by
  unfold upto
  rw [show 2 * n = n + n by omega, ← List.range'_append_1]
  congr 1
  rw [List.map_add_range', Nat.add_comm]

theorem sumBy_div {A : Type} (f : A → Rat) (d : Rat) (l : List A) : sumBy (fun a => f a / d) l = sumBy f l / d := by
  simp only [Rat.div_def]
  exact sumBy_mul_right _ _ _

theorem lexSum_unsm {P : Pars} {s : Nat} (h : LexTrained P s) :
    sumBy (fun t => P.uPts s t) (List.range P.voc) = 1 := by
  obtain ⟨d, h1, h2, h3⟩ := h
  have e : sumBy (fun t => P.uPts s t) (List.range P.voc) =
      sumBy (fun t => (P.lexN s t).getD 0 / d) (List.range P.voc) := by
    apply sumBy_congr
    intro t _
    unfold Pars.uPts
    cases P.lexN s t with
    | none => simp only [Option.getD_none]; rw [Rat.div_def, Rat.zero_mul]
    | some n => simp only [h1, Option.getD_some]
  rw [e, sumBy_div, h3, Rat.div_def, Rat.mul_inv_cancel _ (by grind)]

theorem one_div_mul {n : Nat} (h : 1 ≤ n) : (n : Rat) * (1 / (n : Rat)) = 1 := by
  have : (0 : Rat) < (n : Rat) := Rat.natCast_pos.2 h
  rw [Rat.div_def, Rat.one_mul, Rat.mul_inv_cancel _ (by grind)]

theorem lexSum {P : Pars} {s : Nat} (h : LexTrained P s) (hv : 1 ≤ P.voc) :
    sumBy (fun t => P.pts s t) (List.range P.voc) = 1 := by
  unfold Pars.pts
  rw [sumBy_add, sumBy_mul, lexSum_unsm h, sumBy_const, List.length_range]
  have := one_div_mul hv
  grind

/-- The previous position whose parameters are used. -/
def basePos (ip n : Nat) : Nat := if ip > n then ip - n else ip

theorem ratio_eq {P : Pars} {p n : Nat} {d : Rat} (h : P.aD p n = some d) (i : Nat) :
    P.ratio p n i = (P.aN p n i).getD 0 / d := by
  unfold Pars.ratio
  cases P.aN p n i with
  | none => simp only [Option.getD_none]; rw [Rat.div_def, Rat.zero_mul]
  | some m => simp only [h, Option.getD_some]

/-- Factor of the unsmoothed probability of a source word. -/
def lowFactor (k : Kind) : Rat := match k with | none => 1 | some p0 => 1 - p0

/-- Unsmoothed probability of a null position at the sentence start. -/
def nullStart (P : Pars) (k : Kind) (n : Nat) (d : Rat) : Rat :=
  match k with | none => (P.aN 0 n (n + 1)).getD 0 / d | some p0 => p0 / (n : Rat)

/-- Unsmoothed probability of the null position after position `p`. -/
def nullNext (P : Pars) (k : Kind) (n p : Nat) (d : Rat) : Rat :=
  match k with | none => (P.aN p n (p + n)).getD 0 / d | some p0 => p0

theorem unsm_low (P : Pars) (k : Kind) {ip n i : Nat} (hi : i ≤ n) :
    P.unsm k ip n i = P.ratio (basePos ip n) n i * lowFactor k := by
  have h1 : isValidAlig ip n i = true := by simp [isValidAlig, hi]
  have h2 : isNullAlig ip n i = false := by simp [isNullAlig, hi]
  have h3 : getModifiedIp ip n i = basePos ip n := by
    unfold getModifiedIp basePos
    by_cases h : ip > n
    · rw [if_pos ⟨hi, h⟩, if_pos h]
    · rw [if_neg (fun hh => h hh.2), if_neg h]
  cases k with
  | none => simp only [Pars.unsm, Pars.uA, h1, h2, h3, if_true, Bool.false_eq_true, if_false, lowFactor]; grind
  | some p0 => simp only [Pars.unsm, Pars.uA0, h1, h2, h3, if_true, Bool.false_eq_true, if_false, lowFactor]

theorem valid_high {ip n i : Nat} (hi : n < i) (hip : ip ≠ 0) :
    isValidAlig ip n i = decide (i - n = basePos ip n) ∧ isNullAlig ip n i = decide (i - n = basePos ip n) := by
  unfold isValidAlig isNullAlig basePos
  constructor <;> rw [if_neg (by omega), if_neg hip]

theorem valid_zero {n i : Nat} (hi : n < i) : isValidAlig 0 n i = true ∧ isNullAlig 0 n i = true := by
  unfold isValidAlig isNullAlig
  constructor <;> rw [if_neg (by omega), if_pos rfl]

theorem aligSum {P : Pars} {k : Kind} {n ip : Nat} (hn : 1 ≤ n) (hip : ip ≤ 2 * n)
    (h : AligTrained P k n (basePos ip n)) : sumBy (fun i => P.aProb k ip n i) (upto (2 * n)) = 1 := by
  obtain ⟨d, h1, h2, h3⟩ := h
  have hd : d * d⁻¹ = 1 := Rat.mul_inv_cancel _ (by grind)
  rw [upto_double, sumBy_append, sumBy_map]
  -- first half
  have e1 : sumBy (fun i => P.aProb k ip n i) (upto n) =
      (1 - P.mu) * ((sumBy (fun i => (P.aN (basePos ip n) n i).getD 0) (upto n) / d) *
          lowFactor k) +
        (n : Rat) * (P.mu * (if ip = 0 then 1 / ((2 * n : Nat) : Rat) else 1 / ((n + 1 : Nat) : Rat))) := by
    rw [← sumBy_div, ← sumBy_mul_right, ← sumBy_mul]
    have hl : (n : Rat) = ((upto n).length : Rat) := by simp [upto]
    rw [hl, ← sumBy_const, ← sumBy_add]
    apply sumBy_congr
    intro i hi
    have hin := (mem_upto.1 hi).2
    unfold Pars.aProb
    rw [if_pos (by simp [isValidAlig, hin]), unsm_low P k hin, ratio_eq h1]
  rw [e1]
  by_cases h0 : ip = 0
  · subst h0
    have hb : basePos 0 n = 0 := by simp [basePos]
    rw [hb] at h1 h3 ⊢
    simp only [if_true] at h3 ⊢
    have e2 : sumBy (fun i => P.aProb k 0 n (n + i)) (upto n) =
        (n : Rat) * ((1 - P.mu) * nullStart P k n d +
          P.mu * (1 / ((2 * n : Nat) : Rat))) := by
      have hl : (n : Rat) = ((upto n).length : Rat) := by simp [upto]
      conv => rhs; rw [hl]
      rw [← sumBy_const]
      apply sumBy_congr
      intro i hi
      have hi1 := (mem_upto.1 hi).1
      have hv := valid_zero (n := n) (i := n + i) (by omega)
      unfold Pars.aProb
      rw [if_pos hv.1, if_pos rfl]
      congr 2
      cases k with
      | none =>
        simp only [Pars.unsm, Pars.uA, hv.1, hv.2, if_true, nullAligSpecialPar, nullStart]
        rw [ratio_eq h1]
      | some p0 =>
        simp only [Pars.unsm, Pars.uA0, hv.1, hv.2, if_true, nullStart]
    rw [e2]
    have e3 : ((2 * n : Nat) : Rat) * (1 / ((2 * n : Nat) : Rat)) = 1 := one_div_mul (by omega)
    have e4 : ((2 * n : Nat) : Rat) = 2 * (n : Rat) := by rw [Rat.natCast_mul]; rfl
    have e5 : (n : Rat) * (1 / (n : Rat)) = 1 := one_div_mul hn
    rw [e4] at e3 ⊢
    cases k with
    | none =>
      simp only [Rat.div_def, lowFactor, nullMass, nullStart, if_true] at *
      unfold upto
      grind
    | some p0 =>
      simp only [Rat.div_def, lowFactor, nullMass, nullStart] at *
      unfold upto
      grind
  · have hb1 : 1 ≤ basePos ip n ∧ basePos ip n ≤ n := by unfold basePos; split <;> omega
    have hb0 : basePos ip n ≠ 0 := by omega
    simp only [h0, hb0, if_false] at h3 ⊢
    have e2 : sumBy (fun i => P.aProb k ip n (n + i)) (upto n) =
        (1 - P.mu) * nullNext P k n (basePos ip n) d +
          P.mu * (1 / ((n + 1 : Nat) : Rat)) := by
      have : ∀ i ∈ upto n, P.aProb k ip n (n + i) = if i = basePos ip n then
          (1 - P.mu) * nullNext P k n (basePos ip n) d +
          P.mu * (1 / ((n + 1 : Nat) : Rat)) else 0 := by
        intro i hi
        have hi1 := (mem_upto.1 hi).1
        obtain ⟨v1, v2⟩ := valid_high (ip := ip) (n := n) (i := n + i) (by omega) h0
        rw [Nat.add_sub_cancel_left] at v1 v2
        unfold Pars.aProb
        rw [v1]
        by_cases hib : i = basePos ip n
        · rw [if_pos (by simpa using hib), if_pos hib, if_neg h0]
          congr 2
          rw [decide_eq_true hib] at v1 v2
          cases k with
          | none =>
            simp only [Pars.unsm, Pars.uA, v1, v2, if_true, nullAligSpecialPar, h0, if_false, nullNext]
            exact ratio_eq h1 _
          | some p0 => simp only [Pars.unsm, Pars.uA0, v1, v2, if_true, h0, if_false, nullNext]
        · rw [if_neg (by simpa using hib), if_neg hib]
          cases k with
          | none => simp only [Pars.unsm, Pars.uA, v1, hib, decide_false, Bool.false_eq_true, if_false]
          | some p0 => simp only [Pars.unsm, Pars.uA0, v1, hib, decide_false, Bool.false_eq_true, if_false]
      rw [sumBy_congr this, sumBy_single _ _ (upto_nodup n), if_pos (mem_upto.2 hb1)]
    rw [e2]
    have e3 : ((n + 1 : Nat) : Rat) * (1 / ((n + 1 : Nat) : Rat)) = 1 := one_div_mul (by omega)
    have e4 : ((n + 1 : Nat) : Rat) = (n : Rat) + 1 := by rw [Rat.natCast_add]; rfl
    rw [e4] at e3 ⊢
    cases k with
    | none =>
      simp only [Rat.div_def, lowFactor, nullMass, nullNext, hb0, if_false] at *
      unfold upto
      grind
    | some p0 =>
      simp only [Rat.div_def, lowFactor, nullMass, nullNext] at *
      unfold upto
      grind

theorem sentSum {P : Pars} {k : Kind} {src : List Nat} (hn : 1 ≤ src.length) (hv : 1 ≤ P.voc)
    (hlex : ∀ a, 1 ≤ a → a ≤ 2 * src.length → LexTrained P (wordAt src a))
    (hal : ∀ p, p ≤ src.length → AligTrained P k src.length p) (J : Nat) (prev : Nat) (hp : prev ≤ 2 * src.length) :
    sumBy (fun trg => sumBy (aligProb P k src prev trg) (allAligs (2 * src.length) J)) (allSents P.voc J) = 1 := by
  induction J generalizing prev with
  | zero => simp [allSents, allAligs, sumBy, aligProb]; grind
  | succ J ih =>
    rw [allSents, sumBy_flatMap]
    have e1 : ∀ w ∈ List.range P.voc,
        sumBy (fun trg => sumBy (aligProb P k src prev trg) (allAligs (2 * src.length) (J + 1)))
          ((allSents P.voc J).map fun ws => w :: ws) =
        sumBy (fun a => P.aProb k prev src.length a * P.pts (wordAt src a) w) (upto (2 * src.length)) := by
      intro w _
      rw [sumBy_map]
      have e2 : ∀ ws ∈ allSents P.voc J, sumBy (aligProb P k src prev (w :: ws)) (allAligs (2 * src.length) (J + 1)) =
          sumBy (fun a => P.aProb k prev src.length a * P.pts (wordAt src a) w *
            sumBy (aligProb P k src a ws) (allAligs (2 * src.length) J)) (upto (2 * src.length)) := by
        intro ws _
        rw [allAligs, sumBy_flatMap]
        apply sumBy_congr
        intro a _
        rw [sumBy_map, ← sumBy_mul]
        rfl
      rw [sumBy_congr e2, sumBy_comm]
      apply sumBy_congr
      intro a ha
      rw [sumBy_mul, ih a (mem_upto.1 ha).2]; grind
    rw [sumBy_congr e1, sumBy_comm]
    have e3 : ∀ a ∈ upto (2 * src.length),
        sumBy (fun w => P.aProb k prev src.length a * P.pts (wordAt src a) w) (List.range P.voc) =
          P.aProb k prev src.length a := by
      intro a ha
      obtain ⟨a1, a2⟩ := mem_upto.1 ha
      rw [sumBy_mul, lexSum (hlex a a1 a2) hv]; grind
    rw [sumBy_congr e3]
    refine aligSum hn hp (hal _ ?_)
    unfold basePos; split <;> omega

/-- **C107 (full)**: for every source sentence and target length, the probabilities of all the target sentences of that
length add up to the probability of the length. -/
def C107_full : Prop :=
  ∀ (P : Pars) (k : Kind) (slm : Nat → Nat → Rat) (src : List Nat) (J : Nat),
    1 ≤ P.voc → 0 ≤ P.lam → P.lam ≤ 1 → 0 ≤ P.mu → P.mu ≤ 1 → NoNull src → Fits src → 1 ≤ J → J ≤ 200 →
    sumBy (fun trg => calcProb P k slm src trg) (allSents P.voc J) = slm src.length J

theorem length_allSents {V J : Nat} {ws : List Nat} (h : ws ∈ allSents V J) : ws.length = J := by
  induction J generalizing ws with
  | zero => simp [allSents] at h; subst h; rfl
  | succ J ih =>
    simp only [allSents, List.mem_flatMap, List.mem_map] at h
    obtain ⟨w, _, ws', h1, rfl⟩ := h
    simp [ih h1]

/-- **C107 (partial)**: the claim holds when the words of the source sentence, the NULL word and the source length were
seen in training.  Missing from the full claim: an unseen source word, or source length, leaves only the mass of the
smoothing term. -/
theorem C107_sentences_sum_partial (P : Pars) (k : Kind) (slm : Nat → Nat → Rat) (src : List Nat) (J : Nat)
    (hv : 1 ≤ P.voc) (hnn : NoNull src) (hs : Fits src) (hJ1 : 1 ≤ J) (hJ : J ≤ 200)
    (hlex : ∀ w, w ∈ src ∨ w = 0 → LexTrained P w) (hal : ∀ p, p ≤ src.length → AligTrained P k src.length p) :
    (∀ w, w ∈ src ∨ w = 0 → sumBy (fun t => P.pts w t) (List.range P.voc) = 1) ∧
    (∀ ip, ip ≤ 2 * src.length →
      sumBy (fun i => P.aProb k ip src.length i) (List.range' 1 (2 * src.length)) = 1) ∧
    sumBy (fun trg => calcProb P k slm src trg) (allSents P.voc J) = slm src.length J := by
  refine ⟨fun w hw => lexSum (hlex w hw) hv, fun ip hip => aligSum hs.1 hip (hal _ (by unfold basePos; split <;> omega)), ?_⟩
  have e : ∀ trg ∈ allSents P.voc J, calcProb P k slm src trg =
      slm src.length J * sumBy (aligProb P k src 0 trg) (allAligs (2 * src.length) J) := by
    intro trg ht
    have hl := length_allSents ht
    have hft : Fits trg := ⟨by omega, by omega⟩
    unfold calcProb
    rw [if_pos (by rw [(fits_iff src).2 hs, (fits_iff trg).2 hft]; rfl), length_extend,
      forward_eq _ _ _ (by have := hs.1; omega) hft.1, tailSum_chain hnn, hl]
  rw [sumBy_congr e, sumBy_mul, sentSum hs.1 hv ?_ hal J 0 (by omega)]
  · grind
  · intro a a1 a2
    apply hlex
    unfold wordAt
    by_cases h : a ≤ src.length
    · rw [if_pos h]
      left
      rw [List.getD_eq_getElem?_getD, List.getElem?_eq_getElem (by omega)]
      exact List.getElem_mem _
    · rw [if_neg h]; right; rfl

/-- The full claim is false: a source word that was not seen in training. -/
theorem C107_counterexample : ¬ C107_full := by
  intro h
  have := h exPars none (fun _ _ => 1) [2] 1 (by decide) (by decide +kernel) (by decide +kernel) (by decide +kernel)
    (by decide +kernel) (by intro w hw; simp at hw; omega) ⟨by decide, by decide⟩ (by decide) (by decide)
  revert this
  decide +kernel

/-- The hypotheses of the partial claim are met by parameters with free and with fixed null probability. -/
example : (∀ w, w ∈ [1] ∨ w = 0 → LexTrained exPars w) ∧ (∀ p, p ≤ 1 → AligTrained exPars none 1 p) := by
  refine ⟨?_, ?_⟩
  · intro w hw
    have : w = 1 ∨ w = 0 := by simpa using hw
    rcases this with rfl | rfl
    · exact ⟨4, rfl, by decide +kernel, by decide +kernel⟩
    · exact ⟨2, rfl, by decide +kernel, by decide +kernel⟩
  · intro p hp
    have : p = 0 ∨ p = 1 := by omega
    rcases this with rfl | rfl
    · exact ⟨2, rfl, by decide +kernel, by decide +kernel⟩
    · exact ⟨2, rfl, by decide +kernel, by decide +kernel⟩

/-! ### C108: the phrase probability -/

/-- The lexical parameters are counts: no numerator is negative or above its denominator, and the interpolation factor
is a probability. -/
structure LexOk (P : Pars) : Prop where
  lam0 : 0 ≤ P.lam
  lam1 : P.lam ≤ 1
  voc : 1 ≤ P.voc
  num : ∀ s t n, P.lexN s t = some n → 0 ≤ n ∧ ∀ d, P.lexD s = some d → 0 < d ∧ n ≤ d

theorem pts_bounds {P : Pars} (h : LexOk P) (s t : Nat) : 0 ≤ P.pts s t ∧ P.pts s t ≤ 1 := by
  have hu : 0 ≤ P.uPts s t ∧ P.uPts s t ≤ 1 := by
    unfold Pars.uPts
    cases hn : P.lexN s t with
    | none => exact ⟨Rat.le_refl, (by decide +kernel : (0 : Rat) ≤ 1)⟩
    | some n =>
      dsimp only
      cases hd : P.lexD s with
      | none => exact ⟨Rat.le_refl, (by decide +kernel : (0 : Rat) ≤ 1)⟩
      | some d =>
        obtain ⟨h1, h2⟩ := h.num s t n hn
        obtain ⟨h3, h4⟩ := h2 d hd
        have hi : 0 < d⁻¹ := Rat.inv_pos.2 h3
        refine ⟨?_, ?_⟩
        · show 0 ≤ n / d
          rw [Rat.div_def]; exact Rat.mul_nonneg h1 (Rat.le_of_lt hi)
        · show n / d ≤ 1
          have := Rat.mul_le_mul_of_nonneg_left h4 (Rat.le_of_lt hi)
          have e : d * d⁻¹ = 1 := Rat.mul_inv_cancel _ (by grind)
          rw [Rat.div_def]
          grind
  have hv := one_div_mul h.voc
  have hp : (0 : Rat) < (P.voc : Rat) := Rat.natCast_pos.2 h.voc
  have hv1 : (1 : Rat) ≤ (P.voc : Rat) := by
    have := (Rat.natCast_le_natCast (a := 1) (b := P.voc)).2 h.voc
    simpa using this
  have hq : 0 < (P.voc : Rat)⁻¹ := Rat.inv_pos.2 hp
  have hq1 : (P.voc : Rat)⁻¹ ≤ 1 := by
    have := Rat.mul_le_mul_of_nonneg_left hv1 (Rat.le_of_lt hq)
    have e : (P.voc : Rat) * (P.voc : Rat)⁻¹ = 1 := Rat.mul_inv_cancel _ (by grind)
    grind
  unfold Pars.pts
  have l0 := h.lam0
  have l1 := h.lam1
  have a1 := Rat.mul_nonneg (show (0 : Rat) ≤ 1 - P.lam by grind) hu.1
  have a2 := Rat.mul_le_mul_of_nonneg_left hu.2 (show (0 : Rat) ≤ 1 - P.lam by grind)
  rw [Rat.div_def, Rat.one_mul]
  have b1 := Rat.mul_nonneg l0 (Rat.le_of_lt hq)
  have b2 := Rat.mul_le_mul_of_nonneg_left hq1 l0
  constructor <;> grind

/-- Product of a list of rationals. -/
def prodBy {A : Type} (f : A → Rat) : List A → Rat
  | [] => 1
  | a :: l => f a * prodBy f l

theorem foldl_mul {A : Type} (f : A → Rat) (l : List A) (x : Rat) : l.foldl (fun p a => p * f a) x = x * prodBy f l := by
  induction l generalizing x with
  | nil => simp only [List.foldl_nil, prodBy]; grind
  | cons a l ih => rw [List.foldl_cons, ih, prodBy]; grind

theorem prodBy_bounds {A : Type} {f : A → Rat} {l : List A} (h : ∀ a ∈ l, 0 ≤ f a ∧ f a ≤ 1) :
    0 ≤ prodBy f l ∧ prodBy f l ≤ 1 := by
  induction l with
  | nil => exact ⟨(by decide +kernel : (0 : Rat) ≤ 1), Rat.le_refl⟩
  | cons a l ih =>
    obtain ⟨h1, h2⟩ := ih (fun x hx => h x (List.mem_cons_of_mem _ hx))
    obtain ⟨h3, h4⟩ := h a List.mem_cons_self
    rw [prodBy]
    refine ⟨Rat.mul_nonneg h3 h1, ?_⟩
    have := Rat.mul_le_mul_of_nonneg_left h2 h3
    grind

theorem prodBy_append {A : Type} (f : A → Rat) (l m : List A) : prodBy f (l ++ m) = prodBy f l * prodBy f m := by
  induction l with
  | nil => simp only [List.nil_append, prodBy]; grind
  | cons a l ih => rw [List.cons_append, prodBy, ih, prodBy]; grind

theorem prodBy_le {A : Type} {f g : A → Rat} {l : List A} (h : ∀ a ∈ l, 0 ≤ f a ∧ f a ≤ g a) :
    prodBy f l ≤ prodBy g l := by
  induction l with
  | nil => exact Rat.le_refl
  | cons a l ih =>
    have h1 := ih (fun x hx => h x (List.mem_cons_of_mem _ hx))
    obtain ⟨h3, h4⟩ := h a List.mem_cons_self
    have h0 : 0 ≤ prodBy g l := by
      have gen : ∀ l' : List A, (∀ a ∈ l', 0 ≤ f a ∧ f a ≤ g a) → 0 ≤ prodBy g l' := by
        intro l'
        induction l' with
        | nil => intro _; exact (by decide +kernel : (0 : Rat) ≤ 1)
        | cons b l' ih' =>
          intro hb
          obtain ⟨x1, x2⟩ := hb b List.mem_cons_self
          exact Rat.mul_nonneg (by grind) (ih' (fun x hx => hb x (List.mem_cons_of_mem _ hx)))
      exact gen l (fun x hx => h x (List.mem_cons_of_mem _ hx))
    rw [prodBy, prodBy]
    have a1 := Rat.mul_le_mul_of_nonneg_left h1 h3
    have a2 := Rat.mul_le_mul_of_nonneg_left h4 h0
    grind

/-- **C108**: the probability given to a phrase pair by the word model is the product over the target words of the
probability that some source word generates it; it is between 0 and 1, never decreases when source words are appended,
never increases when target words are appended, and is 0 for a non-empty target phrase without source words. -/
theorem C108_noisy_or (P : Pars) (h : LexOk P) (src trg : List Nat) :
    noisyOr P src trg = prodBy (fun t => 1 - prodBy (fun s => 1 - P.pts s t) src) trg ∧
    0 ≤ noisyOr P src trg ∧ noisyOr P src trg ≤ 1 ∧
    (∀ src', noisyOr P src trg ≤ noisyOr P (src ++ src') trg) ∧
    (∀ trg', noisyOr P src (trg ++ trg') ≤ noisyOr P src trg) ∧
    (trg ≠ [] → noisyOr P [] trg = 0) := by
  have e : ∀ s t, noisyOr P s t = prodBy (fun t => 1 - prodBy (fun s => 1 - P.pts s t) s) t := by
    intro s t
    unfold noisyOr
    have e1 : ∀ t, s.foldl (fun p s => p * (1 - P.pts s t)) 1 = prodBy (fun s => 1 - P.pts s t) s := by
      intro t; rw [foldl_mul (fun s => 1 - P.pts s t)]; grind
    simp only [e1]
    rw [foldl_mul (fun t => 1 - prodBy (fun s => 1 - P.pts s t) s)]; grind
  have hb : ∀ s t, 0 ≤ 1 - P.pts s t ∧ 1 - P.pts s t ≤ 1 := by
    intro s t; have := pts_bounds h s t; constructor <;> grind
  have hin : ∀ (ss : List Nat) (t : Nat), 0 ≤ 1 - prodBy (fun s => 1 - P.pts s t) ss ∧
      1 - prodBy (fun s => 1 - P.pts s t) ss ≤ 1 := by
    intro ss t
    have := prodBy_bounds (l := ss) (f := fun s => 1 - P.pts s t) (fun s _ => hb s t)
    constructor <;> grind
  have hbd := prodBy_bounds (l := trg) (f := fun t => 1 - prodBy (fun s => 1 - P.pts s t) src) (fun t _ => hin src t)
  refine ⟨e src trg, by rw [e]; exact hbd.1, by rw [e]; exact hbd.2, ?_, ?_, ?_⟩
  · intro src'
    rw [e, e]
    apply prodBy_le
    intro t _
    refine ⟨(hin src t).1, ?_⟩
    rw [prodBy_append]
    have h1 := prodBy_bounds (l := src) (f := fun s => 1 - P.pts s t) (fun s _ => hb s t)
    have h2 := prodBy_bounds (l := src') (f := fun s => 1 - P.pts s t) (fun s _ => hb s t)
    have := Rat.mul_le_mul_of_nonneg_left h2.2 h1.1
    grind
  · intro trg'
    rw [e, e, prodBy_append]
    have h2 := prodBy_bounds (l := trg') (f := fun t => 1 - prodBy (fun s => 1 - P.pts s t) src) (fun t _ => hin src t)
    have := Rat.mul_le_mul_of_nonneg_left h2.2 hbd.1
    grind
  · intro hne
    rw [e]
    cases trg with
    | nil => exact absurd rfl hne
    | cons t ts => rw [prodBy]; simp only [prodBy]; grind

example : LexOk exPars ∧ noisyOr exPars [1, 2] [1] = 23/32 := by
  refine ⟨⟨by decide +kernel, by decide +kernel, by decide, ?_⟩, by decide +kernel⟩
  intro s t n hn
  simp only [exPars] at *
  split at hn
  · subst s
    split at hn <;> (cases hn; refine ⟨by decide +kernel, fun d hd => ?_⟩; simp at hd; subst hd; decide +kernel)
  · split at hn
    · subst s; cases hn; refine ⟨by decide +kernel, fun d hd => ?_⟩; simp at hd; subst hd; decide +kernel
    · cases hn

end Thot.Hmm
