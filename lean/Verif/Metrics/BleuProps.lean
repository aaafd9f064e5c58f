import Verif.Metrics.Bleu
/-!
C113 (clipped counts), C114 (corpus BLEU), C115 (BLEU of the weight updater).
-/
namespace Thot.Metrics

variable {α : Type} [DecidableEq α]

/-! ### C113 -/

/-- The number of matches is the sum over the different n-grams of the smaller of the two numbers of occurrences; it is
at most the number of n-grams of any of the two sentences, does not depend on the order of the sentences, and is the
number of n-grams exactly when no n-gram appears more times in the first sentence. -/
theorem C113_clipped_counts (n : Nat) (s r : List α) :
    countMatches n s r = clipped (grams n s) (grams n r) ∧
    countMatches n s r = countMatches n r s ∧
    countMatches n s r ≤ numGrams n s ∧ countMatches n s r ≤ numGrams n r ∧
    (grams n s).length = numGrams n s ∧
    (countMatches n s r = numGrams n s ↔ ∀ g, occ g (grams n s) ≤ occ g (grams n r)) := by
  have h := countMatches_clipped n s r
  have hc : countMatches n s r = countMatches n r s := by
    rw [h, countMatches_clipped n r s, clipped_comm]
  refine ⟨h, hc, ?_, ?_, length_grams n s, ?_⟩
  · rw [h, ← length_grams]; exact clipped_le _ _
  · rw [hc, countMatches_clipped, ← length_grams]; exact clipped_le _ _
  · rw [h, ← length_grams n s, ← greedy_clipped]
    exact greedy_eq_length _ _

theorem countMatches_self (n : Nat) (s : List α) : countMatches n s s = numGrams n s := by
  rw [countMatches_clipped, clipped_self, length_grams]

theorem countMatches_le (n : Nat) (s r : List α) : countMatches n s r ≤ numGrams n s :=
  (C113_clipped_counts n s r).2.2.1

/-- The clipping is not vacuous: "the the the the the the the" against "the cat is on the mat" has 2 matches. -/
example : countMatches 1 [0, 0, 0, 0, 0, 0, 0] [0, 1, 2, 3, 0, 4] = 2 ∧ numGrams 1 [0, 0, 0, 0, 0, 0, 0] = 7 := by
  decide +kernel

/-! ### C114: specification -/

/-- Words of the references. -/
def refLen (l : List (List α × List α)) : Nat := nsum (fun p => p.1.length) l
/-- Words of the translations. -/
def sysLen (l : List (List α × List α)) : Nat := nsum (fun p => p.2.length) l
/-- Matching n-grams of a corpus, the list of the pairs (reference, translation). -/
def corpusMatches (n : Nat) (l : List (List α × List α)) : Nat :=
  nsum (fun p => clipped (grams n p.2) (grams n p.1)) l
/-- n-grams of the translations. -/
def corpusTotal (n : Nat) (l : List (List α × List α)) : Nat := nsum (fun p => (grams n p.2).length) l
/-- The modified precision of a corpus. -/
noncomputable def precision (n : Nat) (l : List (List α × List α)) : ℝ :=
  if corpusTotal n l = 0 then 0 else (corpusMatches n l : ℝ) / corpusTotal n l

/-! ### Lemmas -/

theorem bleuLoop_none (rs ss : List (List α)) (a : BleuAcc) : bleuLoop rs ss a = none ↔ ss.length < rs.length := by
  induction rs generalizing ss a with
  | nil => simp [bleuLoop]
  | cons r rs ih =>
    cases ss with
    | nil => simp [bleuLoop]
    | cons s ss => simp [bleuLoop, ih]

theorem bleuLoop_some (rs ss : List (List α)) (a b : BleuAcc) (h : bleuLoop rs ss a = some b) :
    b.refWords = a.refWords + refLen (rs.zip ss) ∧ b.sysWords = a.sysWords + sysLen (rs.zip ss) ∧
    (∀ n, b.precs n = a.precs n + corpusMatches n (rs.zip ss)) ∧
    (∀ n, b.total n = a.total n + corpusTotal n (rs.zip ss)) := by
  induction rs generalizing ss a with
  | nil =>
    simp only [bleuLoop, Option.some.injEq] at h
    subst h
    simp [refLen, sysLen, corpusMatches, corpusTotal, nsum_nil]
  | cons r rs ih =>
    cases ss with
    | nil => simp [bleuLoop] at h
    | cons s ss =>
      obtain ⟨h1, h2, h3, h4⟩ := ih ss _ h
      simp only [List.zip_cons_cons, refLen, sysLen, corpusMatches, corpusTotal, nsum_cons, BleuAcc.add] at *
      refine ⟨by omega, by omega, fun n => ?_, fun n => ?_⟩
      · have := h3 n; rw [countMatches_clipped] at this; omega
      · have := h4 n; rw [← length_grams] at this; omega

theorem brevity_nonneg (r s : Nat) : 0 ≤ brevity r s := by
  unfold brevity
  split
  · split
    · exact le_refl _
    · exact (Real.exp_pos _).le
  · exact zero_le_one

theorem brevity_lt {r s : Nat} (h : s < r) : brevity r s < 1 := by
  unfold brevity
  rw [if_pos h]
  split
  · exact zero_lt_one
  · rename_i h0
    rw [Real.exp_lt_one_iff]
    have hs : (0 : ℝ) < s := by exact_mod_cast Nat.pos_of_ne_zero h0
    have : (1 : ℝ) < r / s := by
      rw [lt_div_iff₀ hs, one_mul]; exact_mod_cast h
    linarith

theorem brevity_eq_one {r s : Nat} : brevity r s = 1 ↔ r ≤ s := by
  constructor
  · intro h
    by_contra hc
    have := brevity_lt (Nat.lt_of_not_le hc)
    linarith
  · intro h
    unfold brevity
    rw [if_neg (by omega)]

theorem brevity_le_one (r s : Nat) : brevity r s ≤ 1 := by
  by_cases h : s < r
  · exact (brevity_lt h).le
  · exact le_of_eq (brevity_eq_one.2 (by omega))

theorem nsum_pos {β : Type} {f : β → Nat} {l : List β} : 0 < nsum f l ↔ ∃ x ∈ l, 0 < f x := by
  induction l with
  | nil => simp [nsum_nil]
  | cons x l ih =>
    rw [nsum_cons]
    constructor
    · intro h
      by_cases hx : 0 < f x
      · exact ⟨x, List.mem_cons_self, hx⟩
      · obtain ⟨y, hy, hy'⟩ := ih.1 (by omega)
        exact ⟨y, List.mem_cons_of_mem _ hy, hy'⟩
    · rintro ⟨y, hy, hy'⟩
      rcases List.mem_cons.1 hy with e | e
      · subst e; omega
      · have := ih.2 ⟨y, e, hy'⟩; omega

theorem corpusMatches_le (n : Nat) (l : List (List α × List α)) : corpusMatches n l ≤ corpusTotal n l :=
  nsum_le (fun _ _ => clipped_le _ _)

theorem ratio_mem {a b : Nat} (h : a ≤ b) (hb : b ≠ 0) : 0 ≤ (a : ℝ) / b ∧ (a : ℝ) / b ≤ 1 := by
  have hb' : (0 : ℝ) < b := by exact_mod_cast Nat.pos_of_ne_zero hb
  refine ⟨by positivity, ?_⟩
  rw [div_le_one hb']
  exact_mod_cast h

theorem precision_nonneg (n : Nat) (l : List (List α × List α)) : 0 ≤ precision n l := by
  unfold precision
  split
  · exact le_refl _
  · rename_i h; exact (ratio_mem (corpusMatches_le n l) h).1

theorem precision_le_one (n : Nat) (l : List (List α × List α)) : precision n l ≤ 1 := by
  unfold precision
  split
  · exact zero_le_one
  · rename_i h; exact (ratio_mem (corpusMatches_le n l) h).2

theorem myLog_nonpos {x : ℝ} (h0 : 0 ≤ x) (h1 : x ≤ 1) : myLog x ≤ 0 := by
  unfold myLog
  split
  · norm_num
  · exact Real.log_nonpos h0 h1

theorem myLog_eq_zero {x : ℝ} (h0 : 0 ≤ x) (h1 : x ≤ 1) : myLog x = 0 ↔ x = 1 := by
  unfold myLog
  split
  · rename_i h; subst h; norm_num
  · rename_i h
    constructor
    · intro e
      exact Real.eq_one_of_pos_of_log_eq_zero (lt_of_le_of_ne h0 (Ne.symm h)) e
    · intro e; rw [e, Real.log_one]

/-- The score in terms of the specification. -/
theorem calcBleu_some {rs ss : List (List α)} {b : ℝ} (h : calcBleu rs ss = some b) :
    b = brevity (refLen (rs.zip ss)) (sysLen (rs.zip ss)) *
      Real.exp ((myLog (precision 1 (rs.zip ss)) + myLog (precision 2 (rs.zip ss)) + myLog (precision 3 (rs.zip ss)) +
        myLog (precision 4 (rs.zip ss))) / 4) := by
  unfold calcBleu at h
  cases hl : bleuLoop rs ss BleuAcc.init with
  | none => rw [hl] at h; cases h
  | some a =>
    rw [hl] at h
    simp only [Option.map_some, Option.some.injEq] at h
    obtain ⟨h1, h2, h3, h4⟩ := bleuLoop_some rs ss _ _ hl
    have hp : ∀ n, bleuN a n = precision n (rs.zip ss) := by
      intro n
      unfold bleuN precision
      have e3 := h3 n; have e4 := h4 n
      simp only [BleuAcc.init, Nat.zero_add] at e3 e4
      rw [e3, e4]
    simp only [BleuAcc.init, Nat.zero_add] at h1 h2
    rw [← h]
    unfold bleuOf
    rw [h1, h2]
    simp only [List.foldl_cons, List.foldl_nil, hp]
    congr 2
    ring

theorem exp_quarter_pow (x : ℝ) : Real.exp (x / 4) ^ 4 = Real.exp x := by
  rw [← Real.exp_nat_mul]
  congr 1
  push_cast
  ring

/-! ### C114 -/

/-- The brevity penalty of Papineni et al.: 1 if the translation is not shorter than the reference, else
e^(1 - r/c), which for an empty translation is taken to be 0. -/
theorem C114_brevity (r c : Nat) :
    (r ≤ c → brevity r c = 1) ∧ (0 < c → c < r → brevity r c = Real.exp (1 - (r : ℝ) / c)) ∧
    (c = 0 → 0 < r → brevity r c = 0) := by
  refine ⟨brevity_eq_one.2, ?_, ?_⟩
  · intro h0 h1
    unfold brevity
    rw [if_pos h1, if_neg (by omega)]
  · intro h0 h1
    unfold brevity
    rw [if_pos (by omega), if_pos h0]

/-- BLEU of a corpus: it fails exactly when there are fewer translations than references; otherwise the result is
between 0 and 1; its fourth power is the fourth power of the brevity penalty times the product of the four modified
precisions, when none is zero; if some precision is zero the result is negligible; and it is 1 exactly when the
precisions are 1 and the translations are not shorter. Translations without reference are ignored. -/
theorem C114_bleu (refs syss : List (List α)) :
    (calcBleu refs syss = none ↔ syss.length < refs.length) ∧
    ∀ b, calcBleu refs syss = some b →
      0 ≤ b ∧ b ≤ 1 ∧
      ((∀ n ∈ [1, 2, 3, 4], precision n (refs.zip syss) ≠ 0) →
        b ^ 4 = brevity (refLen (refs.zip syss)) (sysLen (refs.zip syss)) ^ 4 *
          (precision 1 (refs.zip syss) * precision 2 (refs.zip syss) * precision 3 (refs.zip syss) *
            precision 4 (refs.zip syss))) ∧
      ((∃ n ∈ [1, 2, 3, 4], precision n (refs.zip syss) = 0) → b ≤ Real.exp (-249999999)) ∧
      (b = 1 ↔ refLen (refs.zip syss) ≤ sysLen (refs.zip syss) ∧
        ∀ n ∈ [1, 2, 3, 4], precision n (refs.zip syss) = 1) := by
  constructor
  · unfold calcBleu
    rw [Option.map_eq_none_iff, bleuLoop_none]
  · intro b hb
    have hv := calcBleu_some hb
    obtain ⟨l, hl⟩ : ∃ l, l = refs.zip syss := ⟨_, rfl⟩
    rw [← hl] at hv ⊢
    have m1 := myLog_nonpos (precision_nonneg 1 l) (precision_le_one 1 l)
    have m2 := myLog_nonpos (precision_nonneg 2 l) (precision_le_one 2 l)
    have m3 := myLog_nonpos (precision_nonneg 3 l) (precision_le_one 3 l)
    have m4 := myLog_nonpos (precision_nonneg 4 l) (precision_le_one 4 l)
    have hbp0 := brevity_nonneg (refLen l) (sysLen l)
    have hbp1 := brevity_le_one (refLen l) (sysLen l)
    obtain ⟨S, hS⟩ : ∃ S, S = myLog (precision 1 l) + myLog (precision 2 l) + myLog (precision 3 l) +
      myLog (precision 4 l) := ⟨_, rfl⟩
    rw [← hS] at hv
    have hS0 : S ≤ 0 := by linarith
    have he0 := Real.exp_pos (S / 4)
    have he1 : Real.exp (S / 4) ≤ 1 := Real.exp_le_one_iff.2 (by linarith)
    refine ⟨?_, ?_, ?_, ?_, ?_⟩
    · rw [hv]; positivity
    · rw [hv]; exact mul_le_one₀ hbp1 he0.le he1
    · intro hp
      rw [hv, mul_pow, exp_quarter_pow, hS]
      have hx : ∀ n ∈ [1, 2, 3, 4], Real.exp (myLog (precision n l)) = precision n l := by
        intro n hn
        unfold myLog
        rw [if_neg (hp n hn)]
        exact Real.exp_log (lt_of_le_of_ne (precision_nonneg n l) (Ne.symm (hp n hn)))
      rw [Real.exp_add, Real.exp_add, Real.exp_add, hx 1 (by simp), hx 2 (by simp), hx 3 (by simp), hx 4 (by simp)]
    · rintro ⟨n, hn, hz⟩
      have hz' : myLog (precision n l) = -999999999 := by rw [hz]; unfold myLog; rw [if_pos rfl]
      have hS4 : S / 4 ≤ -249999999 := by
        simp only [List.mem_cons, List.not_mem_nil, or_false] at hn
        rcases hn with rfl | rfl | rfl | rfl <;> rw [hz'] at hS <;> linarith
      calc b ≤ Real.exp (S / 4) := by rw [hv]; exact mul_le_of_le_one_left he0.le hbp1
        _ ≤ _ := Real.exp_le_exp.2 hS4
    · have key : b = 1 ↔ brevity (refLen l) (sysLen l) = 1 ∧ S = 0 := by
        constructor
        · intro h1
          rw [hv] at h1
          have a1 : brevity (refLen l) (sysLen l) = 1 := by
            apply le_antisymm hbp1
            calc 1 = brevity (refLen l) (sysLen l) * Real.exp (S / 4) := h1.symm
              _ ≤ brevity (refLen l) (sysLen l) := mul_le_of_le_one_right hbp0 he1
          refine ⟨a1, ?_⟩
          rw [a1, one_mul, Real.exp_eq_one_iff] at h1
          linarith
        · rintro ⟨a1, a2⟩
          rw [hv, a1, a2]; simp
      rw [key, brevity_eq_one]
      apply and_congr_right
      intro _
      constructor
      · intro h0 n hn
        rw [← myLog_eq_zero (precision_nonneg n l) (precision_le_one n l)]
        simp only [List.mem_cons, List.not_mem_nil, or_false] at hn
        rcases hn with rfl | rfl | rfl | rfl <;> linarith
      · intro h0
        have hz : ∀ n ∈ [1, 2, 3, 4], myLog (precision n l) = 0 := fun n hn =>
          (myLog_eq_zero (precision_nonneg n l) (precision_le_one n l)).2 (h0 n hn)
        rw [hS, hz 1 (by simp), hz 2 (by simp), hz 3 (by simp), hz 4 (by simp)]
        ring

theorem zip_self {β : Type} (l : List β) : l.zip l = l.map fun x => (x, x) := by
  induction l with
  | nil => rfl
  | cons x l ih => simp [ih]

theorem precision_self_one (n : Nat) (hn : 0 < n) (c : List (List α)) :
    precision n (c.zip c) = 1 ↔ ∃ s ∈ c, n ≤ s.length := by
  have e : corpusMatches n (c.zip c) = corpusTotal n (c.zip c) := by
    rw [zip_self]
    apply nsum_congr
    intro p hp
    obtain ⟨s, _, rfl⟩ := List.mem_map.1 hp
    exact clipped_self _
  have hpos : corpusTotal n (c.zip c) ≠ 0 ↔ ∃ s ∈ c, n ≤ s.length := by
    rw [← Nat.pos_iff_ne_zero]
    unfold corpusTotal
    rw [nsum_pos, zip_self]
    constructor
    · rintro ⟨p, hp, h⟩
      obtain ⟨s, hs, rfl⟩ := List.mem_map.1 hp
      refine ⟨s, hs, ?_⟩
      rw [length_grams] at h
      have h' := numGrams_bound h
      dsimp only at h'
      omega
    · rintro ⟨s, hs, h⟩
      refine ⟨(s, s), List.mem_map.2 ⟨s, hs, rfl⟩, ?_⟩
      rw [length_grams]
      unfold numGrams
      dsimp only
      rw [if_neg (by omega)]
      omega
  rw [← hpos]
  unfold precision
  rw [e]
  split
  · rename_i h; simp [h]
  · rename_i h
    simp [h]

/-- A corpus compared with itself obtains 1 exactly when some sentence has four words or more. -/
theorem C114_identity (c : List (List α)) : calcBleu c c = some 1 ↔ ∃ s ∈ c, 4 ≤ s.length := by
  obtain ⟨h1, h2⟩ := C114_bleu c c
  cases hb : calcBleu c c with
  | none => exact absurd (h1.1 hb) (Nat.lt_irrefl _)
  | some b =>
    obtain ⟨-, -, -, -, h3⟩ := h2 b hb
    have hlen : refLen (c.zip c) ≤ sysLen (c.zip c) := by
      unfold refLen sysLen
      rw [zip_self]
      apply nsum_le
      intro p hp
      obtain ⟨s, _, rfl⟩ := List.mem_map.1 hp
      exact Nat.le_refl _
    rw [Option.some.injEq, h3]
    constructor
    · rintro ⟨_, hp⟩
      exact (precision_self_one 4 (by decide) c).1 (hp 4 (by simp))
    · rintro ⟨s, hs, hl⟩
      refine ⟨hlen, fun n hn => ?_⟩
      simp only [List.mem_cons, List.not_mem_nil, or_false] at hn
      rw [precision_self_one n (by omega)]
      exact ⟨s, hs, by omega⟩

/-- Non-vacuity. -/
example : ∃ b, calcBleu [[0, 1, 2, 3]] [[0, 1, 2, 3]] = some b ∧ b = 1 :=
  ⟨1, (C114_identity _).2 ⟨_, List.mem_cons_self, by decide⟩, rfl⟩

/-! ### C115 -/

theorem scoreFromStats_eq (s : Stats) :
    scoreFromStats s = brevity s.rlen s.clen *
      Real.exp ((statTerm s 1 + statTerm s 2 + statTerm s 3 + statTerm s 4) / 4) := by
  unfold scoreFromStats
  simp only [List.foldl_cons, List.foldl_nil, zero_add]

theorem statTerm_le (s : Stats) (n : Nat) (h : s.prec n ≤ s.tot n) : statTerm s n ≤ if s.tot n = 0 then 1 else 0 := by
  unfold statTerm
  split
  · exact le_refl _
  · rename_i h0
    obtain ⟨a, b⟩ := ratio_mem h h0
    exact myLog_nonpos a b

/-- The score of a sentence with the smoothing of adding one: it is positive and at most 1; it is 1 exactly when the
candidate is not shorter than the reference and all its n-grams (n ≤ 4) match; thus it is 1 for the reference itself.
Its fourth power is the product of the fourth power of the brevity penalty and the smoothed precisions. -/
theorem C115_sentence_score (cand ref : List α) :
    0 < sentScore cand ref ∧ sentScore cand ref ≤ 1 ∧ sentScore ref ref = 1 ∧
    (sentScore cand ref = 1 ↔ ref.length ≤ cand.length ∧
      ∀ n ∈ [1, 2, 3, 4], clipped (grams n cand) (grams n ref) = (grams n cand).length) ∧
    sentScore cand ref ^ 4 = brevity (ref.length + 1) (cand.length + 1) ^ 4 *
      (((clipped (grams 1 cand) (grams 1 ref) + 1 : ℝ) / ((grams 1 cand).length + 1)) *
       ((clipped (grams 2 cand) (grams 2 ref) + 1 : ℝ) / ((grams 2 cand).length + 1)) *
       ((clipped (grams 3 cand) (grams 3 ref) + 1 : ℝ) / ((grams 3 cand).length + 1)) *
       ((clipped (grams 4 cand) (grams 4 ref) + 1 : ℝ) / ((grams 4 cand).length + 1))) := by
  have ht : ∀ (c r : List α) (n : Nat), statTerm ((statsFor c r).add (Stats.const 1)) n =
      Real.log ((clipped (grams n c) (grams n r) + 1 : ℝ) / ((grams n c).length + 1)) := by
    intro c r n
    unfold statTerm
    show (if numGrams n c + 1 = 0 then (1 : ℝ) else
      myLog (((countMatches n c r + 1 : Nat) : ℝ) / ((numGrams n c + 1 : Nat) : ℝ))) = _
    rw [if_neg (by omega), countMatches_clipped, ← length_grams]
    unfold myLog
    rw [if_neg]
    · push_cast; rfl
    · push_cast
      positivity
  have hb : ∀ c r : List α, brevity (((statsFor c r).add (Stats.const 1)).rlen) (((statsFor c r).add (Stats.const 1)).clen)
      = brevity (r.length + 1) (c.length + 1) := fun _ _ => rfl
  have hq : ∀ (c r : List α) (n : Nat), 0 < (clipped (grams n c) (grams n r) + 1 : ℝ) / ((grams n c).length + 1) ∧
      (clipped (grams n c) (grams n r) + 1 : ℝ) / ((grams n c).length + 1) ≤ 1 ∧
      ((clipped (grams n c) (grams n r) + 1 : ℝ) / ((grams n c).length + 1) = 1 ↔
        clipped (grams n c) (grams n r) = (grams n c).length) := by
    intro c r n
    refine ⟨by positivity, ?_, ?_⟩
    · rw [div_le_one (by positivity)]
      have := clipped_le (grams n c) (grams n r)
      have : (clipped (grams n c) (grams n r) : ℝ) ≤ (grams n c).length := by exact_mod_cast this
      linarith
    · rw [div_eq_one_iff_eq (by positivity)]
      constructor
      · intro h
        have : (clipped (grams n c) (grams n r) : ℝ) = (grams n c).length := by linarith
        exact_mod_cast this
      · intro h; rw [h]
  have main : ∀ c r : List α, 0 < sentScore c r ∧ sentScore c r ≤ 1 ∧
      (sentScore c r = 1 ↔ r.length ≤ c.length ∧
        ∀ n ∈ [1, 2, 3, 4], clipped (grams n c) (grams n r) = (grams n c).length) := by
    intro c r
    have hv : sentScore c r = _ := scoreFromStats_eq _
    rw [hb, ht, ht, ht, ht] at hv
    have hlog : ∀ n, Real.log ((clipped (grams n c) (grams n r) + 1 : ℝ) / ((grams n c).length + 1)) ≤ 0 := fun n =>
      Real.log_nonpos (hq c r n).1.le (hq c r n).2.1
    obtain ⟨S, hS⟩ : ∃ S, S = Real.log ((clipped (grams 1 c) (grams 1 r) + 1 : ℝ) / ((grams 1 c).length + 1)) +
      Real.log ((clipped (grams 2 c) (grams 2 r) + 1 : ℝ) / ((grams 2 c).length + 1)) +
      Real.log ((clipped (grams 3 c) (grams 3 r) + 1 : ℝ) / ((grams 3 c).length + 1)) +
      Real.log ((clipped (grams 4 c) (grams 4 r) + 1 : ℝ) / ((grams 4 c).length + 1)) := ⟨_, rfl⟩
    rw [← hS] at hv
    have l1 := hlog 1; have l2 := hlog 2; have l3 := hlog 3; have l4 := hlog 4
    have hS0 : S ≤ 0 := by linarith
    have he0 := Real.exp_pos (S / 4)
    have he1 : Real.exp (S / 4) ≤ 1 := Real.exp_le_one_iff.2 (by linarith)
    have hbpos : 0 < brevity (r.length + 1) (c.length + 1) := by
      unfold brevity
      split
      · rw [if_neg (by omega)]; exact Real.exp_pos _
      · exact zero_lt_one
    have hbp1 := brevity_le_one (r.length + 1) (c.length + 1)
    refine ⟨by rw [hv]; positivity, by rw [hv]; exact mul_le_one₀ hbp1 he0.le he1, ?_⟩
    have key : sentScore c r = 1 ↔ brevity (r.length + 1) (c.length + 1) = 1 ∧ S = 0 := by
      constructor
      · intro h1
        rw [hv] at h1
        have a1 : brevity (r.length + 1) (c.length + 1) = 1 := by
          apply le_antisymm hbp1
          calc 1 = brevity (r.length + 1) (c.length + 1) * Real.exp (S / 4) := h1.symm
            _ ≤ brevity (r.length + 1) (c.length + 1) := mul_le_of_le_one_right hbpos.le he1
        refine ⟨a1, ?_⟩
        rw [a1, one_mul, Real.exp_eq_one_iff] at h1
        linarith
      · rintro ⟨a1, a2⟩
        rw [hv, a1, a2]; simp
    rw [key, brevity_eq_one, Nat.add_le_add_iff_right]
    apply and_congr_right
    intro _
    constructor
    · intro h0 n hn
      rw [← (hq c r n).2.2]
      apply Real.eq_one_of_pos_of_log_eq_zero (hq c r n).1
      simp only [List.mem_cons, List.not_mem_nil, or_false] at hn
      rcases hn with rfl | rfl | rfl | rfl <;> linarith
    · intro h0
      have hz : ∀ n ∈ [1, 2, 3, 4],
          Real.log ((clipped (grams n c) (grams n r) + 1 : ℝ) / ((grams n c).length + 1)) = 0 := fun n hn => by
        rw [(hq c r n).2.2.2 (h0 n hn), Real.log_one]
      rw [hS, hz 1 (by simp), hz 2 (by simp), hz 3 (by simp), hz 4 (by simp)]
      ring
  refine ⟨(main cand ref).1, (main cand ref).2.1, ?_, (main cand ref).2.2, ?_⟩
  · exact (main ref ref).2.2.2 ⟨Nat.le_refl _, fun n _ => clipped_self _⟩
  · have hv : sentScore cand ref = _ := scoreFromStats_eq _
    rw [hb, ht, ht, ht, ht] at hv
    rw [hv, mul_pow, exp_quarter_pow, Real.exp_add, Real.exp_add, Real.exp_add, Real.exp_log (hq cand ref 1).1,
      Real.exp_log (hq cand ref 2).1, Real.exp_log (hq cand ref 3).1, Real.exp_log (hq cand ref 4).1]

theorem corpus_stats (l : List (List α × List α)) (s : Stats) :
    let t := l.foldl (fun s p => s.add (statsFor p.1 p.2)) s
    t.clen = s.clen + sysLen (l.map Prod.swap) ∧ t.rlen = s.rlen + refLen (l.map Prod.swap) ∧
    (∀ n, t.prec n = s.prec n + corpusMatches n (l.map Prod.swap)) ∧
    (∀ n, t.tot n = s.tot n + corpusTotal n (l.map Prod.swap)) := by
  induction l generalizing s with
  | nil => simp [sysLen, refLen, corpusMatches, corpusTotal, nsum_nil]
  | cons p l ih =>
    obtain ⟨h1, h2, h3, h4⟩ := ih (s.add (statsFor p.1 p.2))
    simp only [List.foldl_cons, List.map_cons, refLen, sysLen, corpusMatches, corpusTotal, nsum_cons, Prod.fst_swap,
      Prod.snd_swap] at *
    refine ⟨?_, ?_, fun n => ?_, fun n => ?_⟩
    · rw [h1]; simp only [Stats.add, statsFor]; omega
    · rw [h2]; simp only [Stats.add, statsFor]; omega
    · rw [h3 n]; simp only [Stats.add, statsFor, countMatches_clipped]; omega
    · rw [h4 n]; simp only [Stats.add, statsFor, ← length_grams]; omega

/-- The corpus score of the updater, for the list of candidates with their references, in terms of the specification:
an n-gram order without n-grams adds 1 to the sum of the logarithms. -/
theorem corpusScore_eq (l : List (List α × List α)) :
    corpusScore l = brevity (refLen (l.map Prod.swap)) (sysLen (l.map Prod.swap)) *
      Real.exp (([1, 2, 3, 4].map fun n => if corpusTotal n (l.map Prod.swap) = 0 then (1 : ℝ)
        else myLog (precision n (l.map Prod.swap))).sum / 4) := by
  obtain ⟨h1, h2, h3, h4⟩ := corpus_stats l (Stats.const 0)
  unfold corpusScore
  rw [scoreFromStats_eq, h1, h2]
  have ht : ∀ n, statTerm (l.foldl (fun s p => s.add (statsFor p.1 p.2)) (Stats.const 0)) n =
      if corpusTotal n (l.map Prod.swap) = 0 then (1 : ℝ) else myLog (precision n (l.map Prod.swap)) := by
    intro n
    unfold statTerm precision
    rw [h3 n, h4 n]
    simp only [Stats.const, Nat.zero_add]
    split <;> rfl
  rw [ht, ht, ht, ht]
  simp only [Stats.const, Nat.zero_add, List.map_cons, List.map_nil, List.sum_cons, List.sum_nil]
  congr 2
  ring

theorem zip_swap {β γ : Type} (l : List β) (m : List γ) : (l.zip m).map Prod.swap = m.zip l := by
  induction l generalizing m with
  | nil => simp
  | cons x l ih => cases m with
    | nil => simp
    | cons y m => simp [ih]

/-- What users of the weight updater expect: a score between 0 and 1. -/
def C115_full : Prop := ∀ l : List (List Nat × List Nat), 0 ≤ corpusScore l ∧ corpusScore l ≤ 1

/-- It is false: a corpus whose only sentence has one word, translated without errors, scores e^(3/4). -/
theorem C115_counterexample : ¬ C115_full := by
  intro h
  have h1 := (h [([0], [0])]).2
  rw [corpusScore_eq, show ([([0], [0])].map Prod.swap : List (List Nat × List Nat)) = [([0], [0])] from rfl] at h1
  have t1 : corpusTotal 1 ([([0], [0])] : List (List Nat × List Nat)) = 1 := by decide +kernel
  have t2 : corpusTotal 2 ([([0], [0])] : List (List Nat × List Nat)) = 0 := by decide +kernel
  have t3 : corpusTotal 3 ([([0], [0])] : List (List Nat × List Nat)) = 0 := by decide +kernel
  have t4 : corpusTotal 4 ([([0], [0])] : List (List Nat × List Nat)) = 0 := by decide +kernel
  have m1 : corpusMatches 1 ([([0], [0])] : List (List Nat × List Nat)) = 1 := by decide +kernel
  have r1 : refLen ([([0], [0])] : List (List Nat × List Nat)) = 1 := by decide +kernel
  have s1 : sysLen ([([0], [0])] : List (List Nat × List Nat)) = 1 := by decide +kernel
  simp only [precision, t1, t2, t3, t4, m1, r1, s1, List.map_cons, List.map_nil, List.sum_cons, List.sum_nil,
    brevity_eq_one.2 (Nat.le_refl 1)] at h1
  norm_num [myLog] at h1

/-- What holds: when some candidate has four words or more the corpus score is the BLEU of `calc_bleu` (hence between 0
and 1); in general it is at least 0 and at most e^(k/4), where k is the number of orders n ≤ 4 without n-grams. -/
theorem C115_corpus_score_partial (cands refs : List (List α)) (hlen : cands.length = refs.length) :
    ((∃ s ∈ cands, 4 ≤ s.length) → calcBleu refs cands = some (corpusScore (cands.zip refs))) ∧
    0 ≤ corpusScore (cands.zip refs) ∧
    corpusScore (cands.zip refs) ≤
      Real.exp (([1, 2, 3, 4].countP fun n => decide (∀ s ∈ cands, s.length < n) : Nat) / 4) := by
  have htot : ∀ n, 0 < n → (corpusTotal n (refs.zip cands) = 0 ↔ ∀ s ∈ cands, s.length < n) := by
    intro n hn
    have h1 : corpusTotal n (refs.zip cands) = 0 ↔ ¬ 0 < corpusTotal n (refs.zip cands) := by omega
    rw [h1]
    unfold corpusTotal
    rw [nsum_pos]
    constructor
    · intro h s hs
      by_contra hc
      obtain ⟨i, hi, rfl⟩ := List.mem_iff_getElem.1 hs
      apply h
      refine ⟨(refs[i]'(by omega), cands[i]), ?_, ?_⟩
      · rw [List.mem_iff_getElem]
        exact ⟨i, by simp; omega, by simp⟩
      · rw [length_grams]; unfold numGrams; dsimp only; rw [if_neg hc]; omega
    · rintro h ⟨p, hp, hp'⟩
      have hm : p.2 ∈ cands := (List.of_mem_zip hp).2
      rw [length_grams] at hp'
      have := numGrams_bound hp'
      have := h _ hm
      omega
  have hv := corpusScore_eq (cands.zip refs)
  rw [zip_swap] at hv
  refine ⟨?_, ?_, ?_⟩
  · rintro ⟨s, hs, h4⟩
    cases hb : calcBleu refs cands with
    | none =>
      have := (C114_bleu refs cands).1.1 hb
      omega
    | some b =>
      rw [Option.some.injEq, calcBleu_some hb, hv]
      have hne : ∀ n, 0 < n → n ≤ 4 → corpusTotal n (refs.zip cands) ≠ 0 := by
        intro n h0 h4' hz
        have := (htot n h0).1 hz s hs
        omega
      simp only [List.map_cons, List.map_nil, List.sum_cons, List.sum_nil, if_neg (hne 1 (by decide) (by decide)),
        if_neg (hne 2 (by decide) (by decide)), if_neg (hne 3 (by decide) (by decide)),
        if_neg (hne 4 (by decide) (by decide))]
      congr 2
      ring
  · rw [hv]
    exact mul_nonneg (brevity_nonneg _ _) (Real.exp_pos _).le
  · rw [hv]
    have hterm : ∀ n, 0 < n → (if corpusTotal n (refs.zip cands) = 0 then (1 : ℝ) else myLog (precision n (refs.zip cands)))
        ≤ if (decide (∀ s ∈ cands, s.length < n)) = true then 1 else 0 := by
      intro n hn
      by_cases hz : corpusTotal n (refs.zip cands) = 0
      · rw [if_pos hz, if_pos (by rw [decide_eq_true_eq]; exact (htot n hn).1 hz)]
      · rw [if_neg hz, if_neg (by rw [decide_eq_true_eq]; exact fun h => hz ((htot n hn).2 h))]
        exact myLog_nonpos (precision_nonneg _ _) (precision_le_one _ _)
    have a1 := hterm 1 (by decide)
    have a2 := hterm 2 (by decide)
    have a3 := hterm 3 (by decide)
    have a4 := hterm 4 (by decide)
    refine le_trans (mul_le_of_le_one_left (Real.exp_pos _).le (brevity_le_one _ _)) ?_
    apply Real.exp_le_exp.2
    simp only [List.map_cons, List.map_nil, List.sum_cons, List.sum_nil, List.countP_cons, List.countP_nil]
    push_cast
    linarith

/-- Background: a history of updates after a reset, the last one first. -/
noncomputable def background : List (ℝ × Stats) → BgStats
  | [] => BgStats.reset
  | u :: us => (background us).update u.2 u.1

/-- The score with the background corpus: without updates it is the score of the sentence times the length of the
reference plus one; and with any history of updates with decays between 0 and 1 and statistics of sentences it is
nonnegative and at most e times the (background plus sentence) length of the reference. -/
theorem C115_background_score (h : List (ℝ × (List α × List α))) (hd : ∀ u ∈ h, 0 ≤ u.1 ∧ u.1 ≤ 1) (cand ref : List α) :
    sentBackgroundScore BgStats.reset cand ref = sentScore cand ref * (ref.length + 1) ∧
    0 ≤ sentBackgroundScore (background (h.map fun u => (u.1, statsFor u.2.1 u.2.2))) cand ref ∧
    sentBackgroundScore (background (h.map fun u => (u.1, statsFor u.2.1 u.2.2))) cand ref ≤
      Real.exp 1 * ((nsum (fun u => u.2.2.length) h : ℝ) + ref.length + 1) := by
  constructor
  · have e : BgStats.reset.plus (statsFor cand ref) = (statsFor cand ref).add (Stats.const 1) := by
      unfold BgStats.plus BgStats.reset Stats.add Stats.const
      have f : ∀ k : Nat, ⌊(k : ℝ) + 1⌋₊ = k + 1 := by
        intro k
        have : (k : ℝ) + 1 = ((k + 1 : Nat) : ℝ) := by push_cast; rfl
        rw [this, Nat.floor_natCast]
      simp only [f]
    unfold sentBackgroundScore
    rw [e]
    unfold sentScore
    congr 1
    simp [Stats.add, Stats.const, statsFor]
  · have inv : ∀ g : List (ℝ × (List α × List α)), (∀ u ∈ g, 0 ≤ u.1 ∧ u.1 ≤ 1) →
        0 ≤ (background (g.map fun u => (u.1, statsFor u.2.1 u.2.2))).rlen ∧
        (background (g.map fun u => (u.1, statsFor u.2.1 u.2.2))).rlen ≤ (nsum (fun u => u.2.2.length) g : ℝ) + 1 ∧
        ∀ n, 0 ≤ (background (g.map fun u => (u.1, statsFor u.2.1 u.2.2))).prec n ∧
          (background (g.map fun u => (u.1, statsFor u.2.1 u.2.2))).prec n ≤
            (background (g.map fun u => (u.1, statsFor u.2.1 u.2.2))).tot n := by
      intro g
      induction g with
      | nil =>
        intro _
        simp [background, BgStats.reset, nsum_nil]
      | cons u g ih =>
        intro hg
        obtain ⟨i1, i2, i3⟩ := ih (fun x hx => hg x (List.mem_cons_of_mem _ hx))
        obtain ⟨d0, d1⟩ := hg u List.mem_cons_self
        simp only [List.map_cons, background, BgStats.update, nsum_cons]
        refine ⟨?_, ?_, fun n => ⟨?_, ?_⟩⟩
        · have := mul_nonneg d0 i1
          positivity
        · have : u.1 * (background (g.map fun u => (u.1, statsFor u.2.1 u.2.2))).rlen ≤
            (background (g.map fun u => (u.1, statsFor u.2.1 u.2.2))).rlen := mul_le_of_le_one_left i1 d1
          rw [show (statsFor u.2.1 u.2.2).rlen = u.2.2.length from rfl]
          push_cast
          linarith
        · have := mul_nonneg d0 (i3 n).1
          positivity
        · have a1 := mul_le_mul_of_nonneg_left (i3 n).2 d0
          have a2 : ((statsFor u.2.1 u.2.2).prec n : ℝ) ≤ (statsFor u.2.1 u.2.2).tot n := by
            exact_mod_cast countMatches_le n u.2.1 u.2.2
          linarith
    obtain ⟨i1, i2, i3⟩ := inv h hd
    obtain ⟨B, hB⟩ : ∃ B, B = background (h.map fun u => (u.1, statsFor u.2.1 u.2.2)) := ⟨_, rfl⟩
    rw [← hB] at i1 i2 i3 ⊢
    have hpt : ∀ n, (B.plus (statsFor cand ref)).prec n ≤ (B.plus (statsFor cand ref)).tot n := by
      intro n
      apply Nat.floor_le_floor
      have a2 : ((statsFor cand ref).prec n : ℝ) ≤ (statsFor cand ref).tot n := by
        exact_mod_cast countMatches_le n cand ref
      have := (i3 n).2
      linarith
    have hterm : ∀ n, statTerm (B.plus (statsFor cand ref)) n ≤ 1 := by
      intro n
      refine le_trans (statTerm_le _ n (hpt n)) ?_
      split
      · exact le_refl _
      · exact zero_le_one
    have hsc0 : 0 ≤ scoreFromStats (B.plus (statsFor cand ref)) := by
      unfold scoreFromStats
      exact mul_nonneg (brevity_nonneg _ _) (Real.exp_pos _).le
    have hsc1 : scoreFromStats (B.plus (statsFor cand ref)) ≤ Real.exp 1 := by
      rw [scoreFromStats_eq]
      refine le_trans (mul_le_of_le_one_left (Real.exp_pos _).le (brevity_le_one _ _)) ?_
      apply Real.exp_le_exp.2
      have := hterm 1; have := hterm 2; have := hterm 3; have := hterm 4
      linarith
    have hr : ((B.plus (statsFor cand ref)).rlen : ℝ) ≤ (nsum (fun u => u.2.2.length) h : ℝ) + ref.length + 1 := by
      have : ((B.plus (statsFor cand ref)).rlen : ℝ) ≤ (statsFor cand ref).rlen + B.rlen :=
        Nat.floor_le (by positivity)
      simp only [statsFor] at this ⊢
      linarith
    unfold sentBackgroundScore
    refine ⟨by positivity, ?_⟩
    exact mul_le_mul hsc1 hr (by positivity) (Real.exp_pos _).le

/-- Non-vacuity of the hypothesis on the decays. -/
example : ∀ u ∈ ([(9 / 10, ([0, 1], [0, 2])), (1, ([3], [3]))] : List (ℝ × (List Nat × List Nat))), 0 ≤ u.1 ∧ u.1 ≤ 1 := by
  intro u hu
  simp only [List.mem_cons, List.not_mem_nil, or_false] at hu
  rcases hu with rfl | rfl <;> norm_num

end Thot.Metrics
