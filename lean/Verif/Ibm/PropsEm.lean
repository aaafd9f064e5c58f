import Verif.Ibm.Em
import Verif.Ibm.PropsNorm
/-!
# C129: an iteration of batch training does not decrease the likelihood it maximizes
-/
namespace Thot.Ibm

open Thot Thot.Sum Thot.Hmm Real

/-! ### Specification -/

open Classical in
/-- Log-likelihood of the usable pairs of a range, each multiplied by `f` of its weight; `len n` is the probability of the
length of pair `n`. -/
noncomputable def logLikOf (f : Rat → ℝ) (k : Kind) (pairs : Nat → TPair) (len : Nat → Rat) (lo hi : Nat) (p : Pars) : ℝ :=
  rsum (fun n => if Usable (pairs n) then
    f (pairs n).w * log ((calcProb k p (len n) (pairs n).src (pairs n).trg : Rat) : ℝ) else 0)
    (List.range' lo (hi + 1 - lo))

/-- Parameters are probabilities: nonnegative, and those of a group add up to at most one. -/
def SubNorm (p : Pars) : Prop :=
  NonNeg p ∧ (∀ s (T : List Nat), T.Nodup → sumBy (par p.lex s) T ≤ 1) ∧
    ∀ s (T : List Nat), T.Nodup → sumBy (par p.al s) T ≤ 1

/-- The probability that source position `i` generates target position `j` (from 1), with the null word, without the
constant factors. -/
def genP (k : Kind) (p : Pars) (pr : TPair) (i j : Nat) : Rat :=
  par p.lex (srcAt pr.src i) (pr.trg.getD (j - 1) 0) *
    (match k with
      | .ibm1 => 1
      | .ibm2 => par p.al (j, pr.src.length, pr.trg.length) i)

/-- No floor is reached when training on pair `pr` with parameters `p`: all its parameters are known, the products of
parameters and the weighted posterior probabilities are at least 1e-6. -/
def NoFloor (k : Kind) (p : Pars) (pr : TPair) : Prop :=
  ∀ i j, i ≤ pr.src.length → 1 ≤ j → j ≤ pr.trg.length →
    1 / 1000000 ≤ genP k p pr i j ∧
    1 / 1000000 ≤ pr.w * (genP k p pr i j / sumBy (fun i' => genP k p pr i' j) (List.range (pr.src.length + 1)))

/-- The full property: the likelihood the program reports (in which pairs are not weighted) does not decrease. -/
def C129_full : Prop :=
  ∀ (k : Kind) (pairs : Nat → TPair) (len : Nat → Rat) (lo hi : Nat) (p : Pars), (∀ n, 0 < (pairs n).w) →
    (∀ n, 0 < len n) → SubNorm p → (∀ n, lo ≤ n → n ≤ hi → Usable (pairs n) → NoFloor k p (pairs n)) →
    logLikOf (fun _ => 1) k pairs len lo hi p ≤ logLikOf (fun _ => 1) k pairs len lo hi (batch k pairs lo hi p)

/-! ### Casts -/

theorem rsum_cast {A : Type} (f : A → Rat) (l : List A) : ((sumBy f l : Rat) : ℝ) = rsum (fun a => ((f a : Rat) : ℝ)) l := by
  induction l with
  | nil => simp [sumBy_nil, rsum_nil]
  | cons a l ih => rw [sumBy_cons, rsum_cons, Rat.cast_add, ih]

theorem log_prodBy {A : Type} (f : A → Rat) (l : List A) (h : ∀ a ∈ l, 0 < f a) :
    0 < prodBy f l ∧ log ((prodBy f l : Rat) : ℝ) = rsum (fun a => log ((f a : Rat) : ℝ)) l := by
  induction l with
  | nil => rw [prodBy_nil, rsum_nil]; simp
  | cons a l ih =>
    obtain ⟨i1, i2⟩ := ih fun x hx => h x (List.mem_cons_of_mem _ hx)
    have ha := h a List.mem_cons_self
    rw [prodBy_cons, rsum_cons, Rat.cast_mul, log_mul (by exact_mod_cast ha.ne') (by exact_mod_cast i1.ne'), i2]
    exact ⟨mul_pos ha i1, rfl⟩

/-! ### Slots -/

/-- The parameters of both families. -/
abbrev Key := (Nat × Nat) ⊕ (ASrc × Nat)

/-- Number of uses of a parameter. -/
def cnt (u : Key) (o : List Key) : Nat := @List.count Key instBEqOfDecidableEq u o

theorem cnt_nil (u : Key) : cnt u [] = 0 := rfl
theorem cnt_cons (u a : Key) (o : List Key) : cnt u (a :: o) = cnt u o + if a = u then 1 else 0 := by
  unfold cnt
  rw [@List.count_cons Key instBEqOfDecidableEq]
  congr 1
  simp only [beq_iff_eq]

/-- The group of a parameter. -/
def grp : Key → Nat ⊕ ASrc
  | .inl u => .inl u.1
  | .inr u => .inr u.1

/-- The value of a parameter. -/
noncomputable def theta (p : Pars) : Key → ℝ
  | .inl u => ((par p.lex u.1 u.2 : Rat) : ℝ)
  | .inr u => ((par p.al u.1 u.2 : Rat) : ℝ)

/-- The parameters used when position `i` generates position `j`. -/
def optOf (k : Kind) (pr : TPair) (i j : Nat) : List Key :=
  .inl (srcAt pr.src i, pr.trg.getD (j - 1) 0) ::
    (match k with
      | .ibm1 => []
      | .ibm2 => [.inr ((j, pr.src.length, pr.trg.length), i)])

/-- The slot of target position `j`. -/
noncomputable def slotOf (k : Kind) (pr : TPair) (j : Nat) : Slot Key :=
  ((pr.w : ℝ), (List.range (pr.src.length + 1)).map fun i => optOf k pr i j)

open Classical in
/-- All the slots of a range. -/
noncomputable def slots (k : Kind) (pairs : Nat → TPair) (lo hi : Nat) : List (Slot Key) :=
  (List.range' lo (hi + 1 - lo)).flatMap fun n =>
    if Usable (pairs n) then (List.range' 1 (pairs n).trg.length).map (slotOf k (pairs n)) else []

theorem optP_theta (k : Kind) (p : Pars) (pr : TPair) (i j : Nat) :
    optP (theta p) (optOf k pr i j) = ((genP k p pr i j : Rat) : ℝ) := by
  unfold optP optOf genP
  cases k <;> simp [theta]

theorem slotP_theta (k : Kind) (p : Pars) (pr : TPair) (j : Nat) :
    slotP (theta p) (slotOf k pr j) =
      ((sumBy (fun i => genP k p pr i j) (List.range (pr.src.length + 1)) : Rat) : ℝ) := by
  unfold slotP slotOf
  rw [rsum_map, rsum_cast]
  exact rsum_congr fun i _ => optP_theta k p pr i j

theorem calcProb_gen (k : Kind) (p : Pars) (len : Rat) (pr : TPair) (hu : Usable pr) :
    calcProb k p len pr.src pr.trg = front k len pr.src.length pr.trg.length *
      prodBy (fun j => sumBy (fun i => genP k p pr i j) (List.range (pr.src.length + 1))) (List.range' 1 pr.trg.length) := by
  have : calcProb k p len pr.src pr.trg =
      sumBy (jointP k p len pr.src pr.trg) (aligs (pr.src.length + 1) pr.trg.length) := by
    cases k with
    | ibm1 => rw [C123_ibm1]; exact if_pos hu
    | ibm2 => rw [C123_ibm2]
  rw [this, sumBy_congr (fun a _ => joint_cells k p len pr.src pr.trg a), sumBy_mul,
    sum_aligs (fun i j => cellP k p (addNull pr.src) pr.trg i j)]
  congr 1
  rw [List.range'_eq_map_range, show prodBy _ (List.map _ _) = prodBy (fun j => sumBy (fun i => genP k p pr i (1 + j))
    (List.range (pr.src.length + 1))) (List.range pr.trg.length) from by unfold prodBy; rw [List.map_map]; rfl]
  apply prodBy_congr
  intro j _
  apply sumBy_congr
  intro i _
  unfold cellP genP aFactor addNull srcAt
  cases k with
  | ibm1 => simp
  | ibm2 => simp [Nat.add_comm]

theorem front_pos (k : Kind) (len : Rat) (hl : 0 < len) (a b : Nat) : 0 < front k len a b := by
  unfold front
  cases k with
  | ibm1 =>
    dsimp only
    rw [aProbIbm1_eq]
    apply mul_pos _ hl
    apply (log_prodBy _ _ _).1
    intro x _
    have h : (0 : Rat) ≤ (a : Rat) := Rat.natCast_nonneg
    positivity
  | ibm2 => exact hl

/-- The log-likelihood of a range in terms of slots. -/
theorem logLik_slots (k : Kind) (pairs : Nat → TPair) (len : Nat → Rat) (hlen : ∀ n, 0 < len n) (lo hi : Nat) (p : Pars)
    (hp : ∀ n, lo ≤ n → n ≤ hi → Usable (pairs n) → ∀ i j, i ≤ (pairs n).src.length → 1 ≤ j → j ≤ (pairs n).trg.length →
      0 < genP k p (pairs n) i j) :
    logLikOf (fun w => (w : ℝ)) k pairs len lo hi p = logLik (theta p) (slots k pairs lo hi) +
      rsum (fun n => open Classical in if Usable (pairs n) then
        ((pairs n).w : ℝ) * log ((front k (len n) (pairs n).src.length (pairs n).trg.length : Rat) : ℝ) else 0)
        (List.range' lo (hi + 1 - lo)) := by
  unfold logLikOf logLik slots
  rw [rsum_flatMap, ← rsum_add]
  apply rsum_congr
  intro n hn
  rw [List.mem_range'_1] at hn
  by_cases hu : Usable (pairs n)
  · rw [if_pos hu, if_pos hu, if_pos hu, rsum_map]
    have hs : ∀ j ∈ List.range' 1 (pairs n).trg.length,
        0 < sumBy (fun i => genP k p (pairs n) i j) (List.range ((pairs n).src.length + 1)) := by
      intro j hj
      rw [List.mem_range'_1] at hj
      apply sumBy_pos (a := 0) _ (by simp)
      · exact hp n (by omega) (by omega) hu 0 j (by omega) (by omega) (by omega)
      · intro i hi
        rw [List.mem_range] at hi
        exact (hp n (by omega) (by omega) hu i j (by omega) (by omega) (by omega)).le
    obtain ⟨q1, q2⟩ := log_prodBy _ _ hs
    have hf := front_pos k (len n) (hlen n) (pairs n).src.length (pairs n).trg.length
    rw [calcProb_gen k p (len n) (pairs n) hu, Rat.cast_mul, log_mul (by exact_mod_cast hf.ne') (by exact_mod_cast q1.ne'), q2]
    have e : rsum (fun j => (slotOf k (pairs n) j).1 * log (slotP (theta p) (slotOf k (pairs n) j)))
        (List.range' 1 (pairs n).trg.length) = ((pairs n).w : ℝ) *
        rsum (fun j => log ((sumBy (fun i => genP k p (pairs n) i j) (List.range ((pairs n).src.length + 1)) : Rat) : ℝ))
          (List.range' 1 (pairs n).trg.length) := by
      rw [← rsum_mul]
      apply rsum_congr
      intro j _
      rw [slotP_theta]
      rfl
    rw [e]; ring
  · rw [if_neg hu, if_neg hu, if_neg hu, rsum_nil]; ring

/-! ### Expected counts -/

theorem lk_of_par_pos {G X : Type} [DecidableEq G] [DecidableEq X] {t : Tables G X} {g : G} {x : X} (h : 0 < par t g x) :
    (AMap.lk t.num (g, x)).isSome := by
  unfold par at h
  cases hn : AMap.lk t.num (g, x) with
  | none => rw [hn] at h; exact absurd h (lt_irrefl _)
  | some n => rfl

/-- Without floors the expected value is the posterior probability. -/
theorem anji_posterior (k : Kind) (p : Pars) (hp : NonNeg p) (pr : TPair) (hn : NoFloor k p pr) (i j : Nat)
    (hi : i ≤ pr.src.length) (h1 : 1 ≤ j) (h2 : j ≤ pr.trg.length) :
    anjiVal k p pr.w (addNull pr.src) pr.trg (j, i) =
      genP k p pr i j / sumBy (fun i' => genP k p pr i' j) (List.range (pr.src.length + 1)) := by
  have hsm : smooth = 1 / 1000000 := rfl
  have hnum : ∀ i, i ≤ pr.src.length → anjiFloor k p (addNull pr.src) pr.trg i j = genP k p pr i j := by
    intro i hi
    have hg := (hn i j hi h1 h2).1
    have hpos : 0 < genP k p pr i j := lt_of_lt_of_le (by norm_num) hg
    have e : anjiNum k p (addNull pr.src) pr.trg i j = genP k p pr i j := by
      unfold genP at hpos
      have hl : 0 < par p.lex (srcAt pr.src i) (pr.trg.getD (j - 1) 0) := by
        have h0 := hp.1 (srcAt pr.src i) (pr.trg.getD (j - 1) 0)
        rcases lt_or_eq_of_le h0 with h | h
        · exact h
        · rw [← h, zero_mul] at hpos; exact absurd hpos (lt_irrefl _)
      unfold anjiNum genP seenOr
      rw [show (addNull pr.src).getD i 0 = srcAt pr.src i from rfl, if_pos (lk_of_par_pos hl)]
      cases k with
      | ibm1 => rfl
      | ibm2 =>
        dsimp only at hpos ⊢
        have ha : 0 < par p.al (j, pr.src.length, pr.trg.length) i := by
          have h0 := hp.2 (j, pr.src.length, pr.trg.length) i
          rcases lt_or_eq_of_le h0 with h | h
          · exact h
          · rw [← h, mul_zero] at hpos; exact absurd hpos (lt_irrefl _)
        rw [show (addNull pr.src).length - 1 = pr.src.length by simp [addNull], if_pos (lk_of_par_pos ha)]
    unfold anjiFloor
    rw [e, if_neg (by rw [hsm]; exact not_lt.2 hg)]
  have hraw : anjiRaw k p (addNull pr.src) pr.trg (j, i) =
      genP k p pr i j / sumBy (fun i' => genP k p pr i' j) (List.range (pr.src.length + 1)) := by
    unfold anjiRaw
    dsimp only
    rw [hnum i hi, foldl_sum, zero_add, show (addNull pr.src).length = pr.src.length + 1 by simp [addNull]]
    congr 1
    apply sumBy_congr
    intro i' hi'
    rw [List.mem_range] at hi'
    exact hnum i' (by omega)
  unfold anjiVal
  rw [hraw, if_neg (by rw [hsm]; exact not_lt.2 (hn i j hi h1 h2).2)]

/-- Expected counts of a pair, for both families. -/
theorem expCount_pair_lex (k : Kind) (p : Pars) (hp : NonNeg p) (pr : TPair) (hn : NoFloor k p pr) (u : Nat × Nat) :
    rsum (fun j => (slotOf k pr j).1 * rsum (fun o => optP (theta p) o / slotP (theta p) (slotOf k pr j) *
      (cnt (.inl u) o : ℝ)) (slotOf k pr j).2) (List.range' 1 pr.trg.length) =
      ((contrib ⟨lexCells1 (addNull pr.src) pr.trg, pr.w⟩ (anjiVal k p pr.w (addNull pr.src) pr.trg) u : Rat) : ℝ) := by
  unfold contrib lexCells1
  rw [sumBy_flatMap, rsum_cast]
  apply rsum_congr
  intro j hj
  rw [List.mem_range'_1] at hj
  rw [sumBy_map, rsum_cast, slotP_theta, show (slotOf k pr j).1 = (pr.w : ℝ) from rfl,
    show (slotOf k pr j).2 = (List.range (pr.src.length + 1)).map fun i => optOf k pr i j from rfl, rsum_map, ← rsum_mul,
    show (addNull pr.src).length = pr.src.length + 1 by simp [addNull]]
  apply rsum_congr
  intro i hi
  rw [List.mem_range] at hi
  rw [optP_theta]
  dsimp only
  rw [anji_posterior k p hp pr hn i j (by omega) (by omega) (by omega)]
  have hc : cnt (.inl u) (optOf k pr i j) = if (srcAt pr.src i, pr.trg.getD (j - 1) 0) = u then 1 else 0 := by
    unfold optOf
    cases k <;> simp [cnt_cons, cnt_nil]
  rw [hc, show (addNull pr.src).getD i 0 = srcAt pr.src i from rfl]
  split <;> simp

theorem expCount_pair_al (p : Pars) (hp : NonNeg p) (pr : TPair) (hn : NoFloor .ibm2 p pr) (u : ASrc × Nat) :
    rsum (fun j => (slotOf .ibm2 pr j).1 * rsum (fun o => optP (theta p) o / slotP (theta p) (slotOf .ibm2 pr j) *
      (cnt (.inr u) o : ℝ)) (slotOf .ibm2 pr j).2) (List.range' 1 pr.trg.length) =
      ((contrib ⟨alCells .ibm2 (addNull pr.src) pr.trg, pr.w⟩ (anjiVal .ibm2 p pr.w (addNull pr.src) pr.trg) u : Rat) : ℝ) := by
  unfold contrib alCells
  dsimp only
  rw [sumBy_flatMap, rsum_cast]
  apply rsum_congr
  intro j hj
  rw [List.mem_range'_1] at hj
  rw [sumBy_map, rsum_cast, slotP_theta, show (slotOf .ibm2 pr j).1 = (pr.w : ℝ) from rfl,
    show (slotOf .ibm2 pr j).2 = (List.range (pr.src.length + 1)).map fun i => optOf .ibm2 pr i j from rfl, rsum_map, ← rsum_mul,
    show (addNull pr.src).length = pr.src.length + 1 by simp [addNull]]
  apply rsum_congr
  intro i hi
  rw [List.mem_range] at hi
  rw [optP_theta]
  dsimp only
  rw [anji_posterior .ibm2 p hp pr hn i j (by omega) (by omega) (by omega)]
  have hc : cnt (.inr u) (optOf .ibm2 pr i j) = if ((j, pr.src.length, pr.trg.length), i) = u then 1 else 0 := by
    unfold optOf
    simp [cnt_cons, cnt_nil]
  rw [hc, show pr.src.length + 1 - 1 = pr.src.length by omega]
  split <;> simp

theorem expCount_slots (k : Kind) (pairs : Nat → TPair) (lo hi : Nat) (θ : Key → ℝ) (u : Key) :
    expCount θ (slots k pairs lo hi) u = rsum (fun n => open Classical in if Usable (pairs n) then
      rsum (fun j => (slotOf k (pairs n) j).1 * rsum (fun o => optP θ o / slotP θ (slotOf k (pairs n) j) * (cnt u o : ℝ))
        (slotOf k (pairs n) j).2) (List.range' 1 (pairs n).trg.length) else 0) (List.range' lo (hi + 1 - lo)) := by
  unfold expCount slots
  rw [rsum_flatMap]
  apply rsum_congr
  intro n _
  by_cases hu : Usable (pairs n)
  · rw [if_pos hu, if_pos hu, rsum_map]; rfl
  · rw [if_neg hu, if_neg hu, rsum_nil]

theorem expCount_lex (k : Kind) (pairs : Nat → TPair) (lo hi : Nat) (p : Pars) (hp : NonNeg p)
    (hn : ∀ n, lo ≤ n → n ≤ hi → Usable (pairs n) → NoFloor k p (pairs n)) (u : Nat × Nat) :
    expCount (theta p) (slots k pairs lo hi) (.inl u) = ((numAt (batch k pairs lo hi p).lex u : Rat) : ℝ) := by
  rw [expCount_slots]
  unfold batch
  dsimp only
  rw [(batch_spec (lexCorpus pairs) (lexCorpus_ok pairs) _ lo hi _).2, rsum_cast]
  apply rsum_congr
  intro n hnr
  rw [List.mem_range'_1] at hnr
  unfold newC lexCorpus
  by_cases hu : Usable (pairs n)
  · rw [if_pos hu, if_pos ((lenOk_iff _).2 hu), expCount_pair_lex k p hp (pairs n) (hn n (by omega) (by omega) hu)]
    rfl
  · rw [if_neg hu, if_neg (fun h => hu ((lenOk_iff _).1 h))]; simp

theorem expCount_al (pairs : Nat → TPair) (lo hi : Nat) (p : Pars) (hp : NonNeg p)
    (hn : ∀ n, lo ≤ n → n ≤ hi → Usable (pairs n) → NoFloor .ibm2 p (pairs n)) (u : ASrc × Nat) :
    expCount (theta p) (slots .ibm2 pairs lo hi) (.inr u) = ((numAt (batch .ibm2 pairs lo hi p).al u : Rat) : ℝ) := by
  rw [expCount_slots]
  unfold batch
  dsimp only
  rw [(batch_spec (alCorpus .ibm2 pairs) (alCorpus_ok .ibm2 pairs) _ lo hi _).2, rsum_cast]
  apply rsum_congr
  intro n hnr
  rw [List.mem_range'_1] at hnr
  unfold newC alCorpus
  by_cases hu : Usable (pairs n)
  · rw [if_pos hu, if_pos ((lenOk_iff _).2 hu), expCount_pair_al p hp (pairs n) (hn n (by omega) (by omega) hu)]
    rfl
  · rw [if_neg hu, if_neg (fun h => hu ((lenOk_iff _).1 h))]; simp

/-! ### The theorem -/

theorem good_par_pos {γ G X : Type} [DecidableEq γ] [DecidableEq G] [DecidableEq X]
    {corpus : Nat → Option (Hmm.Sent γ G X)} {tr : Nat → Prop} {t : Tables G X} (h : Good corpus tr t) {u : G × X}
    (hp : 0 < numAt t u) : 0 < denSum t.num u.1 ∧ 0 < par t u.1 u.2 := by
  have hd : 0 < denSum t.num u.1 := by
    unfold denSum
    cases hn : AMap.lk t.num u with
    | none => unfold numAt at hp; rw [hn] at hp; exact absurd hp (lt_irrefl _)
    | some v =>
      have hv : 0 < v := by unfold numAt at hp; rw [hn] at hp; exact hp
      apply sumBy_pos (a := (u, v)) _ (mem_of_lk hn)
      · dsimp only; rw [if_pos rfl]; exact hv
      · intro e he
        split
        · have := h.nonneg e.1
          unfold numAt at this
          rw [(AMap.lk_some_iff h.ok.dist).2 (show (e.1, e.2) ∈ t.num from he)] at this
          exact this
        · exact le_refl _
  refine ⟨hd, ?_⟩
  rw [par_eq h.ok]
  exact div_pos hp hd

/-- The parameters with a positive numerator. -/
def posKeys {G X : Type} [DecidableEq G] [DecidableEq X] (t : Tables G X) : List (G × X) :=
  (t.num.map Prod.fst).filter fun u => decide (0 < numAt t u)

theorem mem_posKeys {G X : Type} [DecidableEq G] [DecidableEq X] {t : Tables G X} {u : G × X} :
    u ∈ posKeys t ↔ 0 < numAt t u := by
  unfold posKeys
  rw [List.mem_filter, decide_eq_true_eq]
  refine ⟨fun h => h.2, fun h => ⟨?_, h⟩⟩
  by_contra hn
  unfold numAt at h
  rw [AMap.lk_none_iff.2 hn] at h
  exact lt_irrefl _ h

theorem group_le {G X : Type} [DecidableEq G] [DecidableEq X] (f : G → X → Rat) (g : G) {U : List (G × X)} (hU : U.Nodup)
    (h : ∀ T : List X, T.Nodup → sumBy (f g) T ≤ 1) : sumBy (fun u => if u.1 = g then f u.1 u.2 else 0) U ≤ 1 := by
  have e : sumBy (fun u => if u.1 = g then f u.1 u.2 else 0) U =
      sumBy (f g) ((U.filter fun u => decide (u.1 = g)).map Prod.snd) := by
    rw [sumBy_map, sumBy_filter]
    apply sumBy_congr
    intro u _
    by_cases hg : u.1 = g
    · simp [hg]
    · simp [hg]
  rw [e]
  apply h
  rw [List.nodup_map_iff_inj_on (hU.filter _)]
  intro a ha b hb hab
  have h1 := of_decide_eq_true (List.mem_filter.1 ha).2
  have h2 := of_decide_eq_true (List.mem_filter.1 hb).2
  exact Prod.ext (h1.trans h2.symm) hab

theorem genP_pos_split {k : Kind} {p : Pars} (hp : NonNeg p) {pr : TPair} {i j : Nat} (h : 0 < genP k p pr i j) :
    0 < par p.lex (srcAt pr.src i) (pr.trg.getD (j - 1) 0) ∧
    (k = .ibm2 → 0 < par p.al (j, pr.src.length, pr.trg.length) i) := by
  unfold genP at h
  constructor
  · rcases lt_or_eq_of_le (hp.1 (srcAt pr.src i) (pr.trg.getD (j - 1) 0)) with h' | h'
    · exact h'
    · rw [← h', zero_mul] at h; exact absurd h (lt_irrefl _)
  · rintro rfl
    dsimp only at h
    rcases lt_or_eq_of_le (hp.2 (j, pr.src.length, pr.trg.length) i) with h' | h'
    · exact h'
    · rw [← h', mul_zero] at h; exact absurd h (lt_irrefl _)

/-- C129 (partial: each pair counted with its weight): when the current parameters are probabilities and no floor is
reached, an iteration of batch training does not decrease the weighted log-likelihood of the range. -/
theorem C129_weighted_partial (k : Kind) (pairs : Nat → TPair) (len : Nat → Rat) (lo hi : Nat) (p : Pars)
    (hw : ∀ n, 0 < (pairs n).w) (hlen : ∀ n, 0 < len n) (hs : SubNorm p)
    (hn : ∀ n, lo ≤ n → n ≤ hi → Usable (pairs n) → NoFloor k p (pairs n)) :
    logLikOf (fun w => (w : ℝ)) k pairs len lo hi p ≤
      logLikOf (fun w => (w : ℝ)) k pairs len lo hi (batch k pairs lo hi p) := by
  obtain ⟨hp, hsl, hsa⟩ := hs
  have htr : Trained k pairs (batch k pairs lo hi p) (fun n => lo ≤ n ∧ n ≤ hi) := Or.inr ⟨p, lo, hi, rfl, rfl⟩
  obtain ⟨gl, ga⟩ := trained_good hw htr
  obtain ⟨q, hq⟩ : ∃ q, q = batch k pairs lo hi p := ⟨_, rfl⟩
  rw [← hq] at gl ga ⊢
  have hgen : ∀ n, lo ≤ n → n ≤ hi → Usable (pairs n) → ∀ i j, i ≤ (pairs n).src.length → 1 ≤ j →
      j ≤ (pairs n).trg.length → 0 < genP k p (pairs n) i j :=
    fun n h1 h2 hu i j hi h3 h4 => lt_of_lt_of_le (by norm_num) (hn n h1 h2 hu i j hi h3 h4).1
  -- cells have positive numerators
  have hlexkey : ∀ n, lo ≤ n → n ≤ hi → Usable (pairs n) → ∀ i j, i ≤ (pairs n).src.length → 1 ≤ j →
      j ≤ (pairs n).trg.length → 0 < numAt q.lex (srcAt (pairs n).src i, (pairs n).trg.getD (j - 1) 0) := by
    intro n h1 h2 hu i j hi h3 h4
    obtain ⟨snt, hsnt⟩ := (lex_key pairs n (srcAt (pairs n).src i, (pairs n).trg.getD (j - 1) 0)).2
      ⟨hu, mem_getD_iff.2 ⟨i, by simp; omega, rfl⟩, mem_getD_iff.2 ⟨j - 1, by omega, rfl⟩⟩
    exact (gl.pos _).2 ⟨n, snt, ⟨h1, h2⟩, hsnt⟩
  have halkey : k = .ibm2 → ∀ n, lo ≤ n → n ≤ hi → Usable (pairs n) → ∀ i j, i ≤ (pairs n).src.length → 1 ≤ j →
      j ≤ (pairs n).trg.length → 0 < numAt q.al ((j, (pairs n).src.length, (pairs n).trg.length), i) := by
    rintro rfl n h1 h2 hu i j hi h3 h4
    obtain ⟨snt, hsnt⟩ := (al_key pairs n ((j, (pairs n).src.length, (pairs n).trg.length), i)).2 ⟨hu, h3, h4, rfl, rfl, hi⟩
    exact (ga.pos _).2 ⟨n, snt, ⟨h1, h2⟩, hsnt⟩
  have hgen' : ∀ n, lo ≤ n → n ≤ hi → Usable (pairs n) → ∀ i j, i ≤ (pairs n).src.length → 1 ≤ j →
      j ≤ (pairs n).trg.length → 0 < genP k q (pairs n) i j := by
    intro n h1 h2 hu i j hi h3 h4
    unfold genP
    have a := (good_par_pos gl (hlexkey n h1 h2 hu i j hi h3 h4)).2
    cases k with
    | ibm1 => dsimp only; rw [mul_one]; exact a
    | ibm2 => exact mul_pos a (good_par_pos ga (halkey rfl n h1 h2 hu i j hi h3 h4)).2
  rw [logLik_slots k pairs len hlen lo hi p hgen, logLik_slots k pairs len hlen lo hi q hgen']
  apply add_le_add _ (le_refl _)
  -- no alignment parameters in the first model
  have hal1 : k = .ibm1 → posKeys q.al = [] := by
    rintro rfl
    apply List.eq_nil_iff_forall_not_mem.2
    intro u hu
    obtain ⟨n, snt, _, hc, hm⟩ := (ga.pos u).1 (mem_posKeys.1 hu)
    unfold alCorpus at hc
    split at hc
    · cases hc; cases hm
    · cases hc
  have hUl : (posKeys q.lex).Nodup := (show (q.lex.num.map Prod.fst).Nodup from gl.ok.dist).filter _
  have hUa : (posKeys q.al).Nodup := (show (q.al.num.map Prod.fst).Nodup from ga.ok.dist).filter _
  have hel : ∀ u, expCount (theta p) (slots k pairs lo hi) (.inl u) = ((numAt q.lex u : Rat) : ℝ) := by
    intro u; rw [hq]; exact expCount_lex k pairs lo hi p hp hn u
  have hea : k = .ibm2 → ∀ u, expCount (theta p) (slots k pairs lo hi) (.inr u) = ((numAt q.al u : Rat) : ℝ) := by
    rintro rfl u; rw [hq]; exact expCount_al pairs lo hi p hp hn u
  have hslot : ∀ s ∈ slots k pairs lo hi, ∃ n j, lo ≤ n ∧ n ≤ hi ∧ Usable (pairs n) ∧ 1 ≤ j ∧ j ≤ (pairs n).trg.length ∧
      s = slotOf k (pairs n) j := by
    intro s hs
    unfold slots at hs
    rw [List.mem_flatMap] at hs
    obtain ⟨n, hnr, hs⟩ := hs
    rw [List.mem_range'_1] at hnr
    by_cases hu : Usable (pairs n)
    · rw [if_pos hu] at hs
      obtain ⟨j, hj, rfl⟩ := List.mem_map.1 hs
      rw [List.mem_range'_1] at hj
      exact ⟨n, j, by omega, by omega, hu, by omega, by omega, rfl⟩
    · rw [if_neg hu] at hs; cases hs
  -- positive parameters
  have hposl : ∀ u ∈ posKeys q.lex, 0 < par p.lex u.1 u.2 := by
    intro u hu
    obtain ⟨n, snt, ⟨h1, h2⟩, hsnt⟩ := (gl.pos u).1 (mem_posKeys.1 hu)
    obtain ⟨hus, hx, hy⟩ := (lex_key pairs n u).1 ⟨snt, hsnt⟩
    obtain ⟨i, hi, e1⟩ := mem_getD_iff.1 hx
    obtain ⟨j, hj, e2⟩ := mem_getD_iff.1 hy
    have hi' : i ≤ (pairs n).src.length := by simp at hi; omega
    have := (genP_pos_split hp (hgen n h1 h2 hus i (j + 1) hi' (by omega) (by omega))).1
    rw [Nat.add_sub_cancel, e2, show srcAt (pairs n).src i = u.1 from e1] at this
    exact this
  have hposa : ∀ u ∈ posKeys q.al, 0 < par p.al u.1 u.2 := by
    intro u hu
    cases hk : k with
    | ibm1 => rw [hal1 hk] at hu; cases hu
    | ibm2 =>
      subst hk
      obtain ⟨n, snt, ⟨h1, h2⟩, hsnt⟩ := (ga.pos u).1 (mem_posKeys.1 hu)
      obtain ⟨hus, a1, a2, a3, a4, a5⟩ := (al_key pairs n u).1 ⟨snt, hsnt⟩
      have := (genP_pos_split hp (hgen n h1 h2 hus u.2 u.1.1 a5 a1 a2)).2 rfl
      rw [← a3, ← a4] at this
      exact this
  have hdl : ∀ g, denSum q.lex.num g = sumBy (fun u => if u.1 = g then numAt q.lex u else 0) (posKeys q.lex) :=
    fun g => denSum_keys gl.ok g hUl fun u hu => mem_posKeys.2 (lt_of_le_of_ne (gl.nonneg u) (Ne.symm hu))
  have hda : ∀ g, denSum q.al.num g = sumBy (fun u => if u.1 = g then numAt q.al u else 0) (posKeys q.al) :=
    fun g => denSum_keys ga.ok g hUa fun u hu => mem_posKeys.2 (lt_of_le_of_ne (ga.nonneg u) (Ne.symm hu))
  have hmem : ∀ x : Key, x ∈ (posKeys q.lex).map Sum.inl ++ (posKeys q.al).map Sum.inr →
      (∃ u ∈ posKeys q.lex, x = .inl u) ∨ (∃ u ∈ posKeys q.al, x = .inr u) := by
    intro x hx
    rcases List.mem_append.1 hx with hx | hx
    · obtain ⟨u, hu, rfl⟩ := List.mem_map.1 hx; exact Or.inl ⟨u, hu, rfl⟩
    · obtain ⟨u, hu, rfl⟩ := List.mem_map.1 hx; exact Or.inr ⟨u, hu, rfl⟩
  apply em_monotone grp (fun g => match g with
    | .inl s => ((denSum q.lex.num s : Rat) : ℝ)
    | .inr s => ((denSum q.al.num s : Rat) : ℝ)) (slots k pairs lo hi)
    (U := (posKeys q.lex).map Sum.inl ++ (posKeys q.al).map Sum.inr)
  · -- hU
    rw [List.nodup_append]
    refine ⟨nodup_map_inj _ _ hUl (fun a b h => Sum.inl.inj h), nodup_map_inj _ _ hUa (fun a b h => Sum.inr.inj h), ?_⟩
    intro a ha b hb hab
    obtain ⟨_, _, rfl⟩ := List.mem_map.1 ha
    obtain ⟨_, _, rfl⟩ := List.mem_map.1 hb
    cases hab
  · -- hw
    intro s hs
    obtain ⟨n, j, _, _, _, _, _, rfl⟩ := hslot s hs
    show (0 : ℝ) ≤ ((pairs n).w : ℝ)
    exact_mod_cast (hw n).le
  · -- hne
    intro s hs
    obtain ⟨n, j, _, _, _, _, _, rfl⟩ := hslot s hs
    unfold slotOf
    simp
  · -- hk
    intro s hs o ho x hx
    obtain ⟨n, j, h1, h2, hu, h3, h4, rfl⟩ := hslot s hs
    obtain ⟨i, hi, rfl⟩ := List.mem_map.1 ho
    rw [List.mem_range] at hi
    unfold optOf at hx
    rcases List.mem_cons.1 hx with rfl | hx
    · exact List.mem_append_left _ (List.mem_map.2 ⟨_, mem_posKeys.2 (hlexkey n h1 h2 hu i j (by omega) h3 h4), rfl⟩)
    · cases hk : k with
      | ibm1 => rw [hk] at hx; cases hx
      | ibm2 =>
        rw [hk] at hx
        rw [List.mem_singleton] at hx
        subst hx
        exact List.mem_append_right _ (List.mem_map.2 ⟨_, mem_posKeys.2 (halkey hk n h1 h2 hu i j (by omega) h3 h4), rfl⟩)
  · -- hθ
    intro x hx
    rcases hmem x hx with ⟨u, hu, rfl⟩ | ⟨u, hu, rfl⟩
    · exact Rat.cast_pos.2 (hposl u hu)
    · exact Rat.cast_pos.2 (hposa u hu)
  · -- hθ'
    intro x hx
    rcases hmem x hx with ⟨u, hu, rfl⟩ | ⟨u, hu, rfl⟩
    · exact Rat.cast_pos.2 (good_par_pos gl (mem_posKeys.1 hu)).2
    · exact Rat.cast_pos.2 (good_par_pos ga (mem_posKeys.1 hu)).2
  · -- hC
    intro x hx
    rcases hmem x hx with ⟨u, hu, rfl⟩ | ⟨u, hu, rfl⟩
    · rw [hel]
      show ((par q.lex u.1 u.2 : Rat) : ℝ) * ((denSum q.lex.num u.1 : Rat) : ℝ) = _
      rw [← Rat.cast_mul, par_eq gl.ok, div_mul_cancel₀ _ (good_par_pos gl (mem_posKeys.1 hu)).1.ne']
    · cases hk : k with
      | ibm1 => rw [hal1 hk] at hu; cases hu
      | ibm2 =>
        have := hea hk u
        rw [hk] at this
        rw [this]
        show ((par q.al u.1 u.2 : Rat) : ℝ) * ((denSum q.al.num u.1 : Rat) : ℝ) = _
        rw [← Rat.cast_mul, par_eq ga.ok, div_mul_cancel₀ _ (good_par_pos ga (mem_posKeys.1 hu)).1.ne']
  · -- hC0
    intro x hx
    rcases hmem x hx with ⟨u, hu, rfl⟩ | ⟨u, hu, rfl⟩
    · show (0 : ℝ) ≤ ((denSum q.lex.num u.1 : Rat) : ℝ)
      exact_mod_cast (good_par_pos gl (mem_posKeys.1 hu)).1.le
    · show (0 : ℝ) ≤ ((denSum q.al.num u.1 : Rat) : ℝ)
      exact_mod_cast (good_par_pos ga (mem_posKeys.1 hu)).1.le
  · -- hsum
    intro g
    rw [rsum_append, rsum_map, rsum_map]
    cases g with
    | inl s =>
      dsimp only
      rw [rsum_zero (l := posKeys q.al), add_zero, hdl, rsum_cast]
      · apply rsum_congr
        intro u _
        rw [hel]
        by_cases h : u.1 = s
        · rw [if_pos h, if_pos (by simp only [grp, h])]
        · rw [if_neg h, if_neg (by unfold grp; intro e; exact h (Sum.inl.inj e))]; simp
      · intro u _
        rw [if_neg (by unfold grp; intro e; cases e)]
    | inr s =>
      dsimp only
      rw [rsum_zero (l := posKeys q.lex), zero_add, hda, rsum_cast]
      · apply rsum_congr
        intro u hu
        by_cases h : u.1 = s
        · rw [if_pos h, if_pos (by simp only [grp, h])]
          cases hk : k with
          | ibm1 => rw [hal1 hk] at hu; cases hu
          | ibm2 => have := hea hk u; rw [hk] at this; exact this.symm
        · rw [if_neg h, if_neg (by unfold grp; intro e; exact h (Sum.inr.inj e))]; simp
      · intro u _
        rw [if_neg (by unfold grp; intro e; cases e)]
  · -- hone
    intro g
    rw [rsum_append, rsum_map, rsum_map]
    cases g with
    | inl s =>
      rw [rsum_zero (l := posKeys q.al), add_zero]
      · have := group_le (fun a b => par p.lex a b) s hUl (hsl s)
        have h2 : ((sumBy (fun u => if u.1 = s then par p.lex u.1 u.2 else 0) (posKeys q.lex) : Rat) : ℝ) ≤ 1 := by
          exact_mod_cast this
        rw [rsum_cast] at h2
        refine le_trans (le_of_eq ?_) h2
        apply rsum_congr
        intro u _
        by_cases h : u.1 = s
        · rw [if_pos h, if_pos (by simp only [grp, h])]; rfl
        · rw [if_neg h, if_neg (by unfold grp; intro e; exact h (Sum.inl.inj e))]; simp
      · intro u _
        rw [if_neg (by unfold grp; intro e; cases e)]
    | inr s =>
      rw [rsum_zero (l := posKeys q.lex), zero_add]
      · have := group_le (fun a b => par p.al a b) s hUa (hsa s)
        have h2 : ((sumBy (fun u => if u.1 = s then par p.al u.1 u.2 else 0) (posKeys q.al) : Rat) : ℝ) ≤ 1 := by
          exact_mod_cast this
        rw [rsum_cast] at h2
        refine le_trans (le_of_eq ?_) h2
        apply rsum_congr
        intro u _
        by_cases h : u.1 = s
        · rw [if_pos h, if_pos (by simp only [grp, h])]; rfl
        · rw [if_neg h, if_neg (by unfold grp; intro e; exact h (Sum.inr.inj e))]; simp
      · intro u _
        rw [if_neg (by unfold grp; intro e; cases e)]

theorem trained_subNorm {k : Kind} {pairs : Nat → TPair} (hw : ∀ n, 0 < (pairs n).w) {p : Pars} {tr : Nat → Prop}
    (h : Trained k pairs p tr) : SubNorm p := by
  obtain ⟨gl, ga⟩ := trained_good hw h
  exact ⟨⟨fun s t => (par_sum gl.ok gl.nonneg s List.nodup_nil).2.2 t, fun s t => (par_sum ga.ok ga.nonneg s List.nodup_nil).2.2 t⟩,
    fun s T hT => (par_sum gl.ok gl.nonneg s hT).2.1, fun s T hT => (par_sum ga.ok ga.nonneg s hT).2.1⟩

/-- C129: in particular from parameters obtained by training, in any way. -/
theorem C129_trained_partial (k : Kind) (pairs : Nat → TPair) (len : Nat → Rat) (lo hi : Nat) (p : Pars) (tr : Nat → Prop)
    (ht : Trained k pairs p tr) (hw : ∀ n, 0 < (pairs n).w) (hlen : ∀ n, 0 < len n)
    (hn : ∀ n, lo ≤ n → n ≤ hi → Usable (pairs n) → NoFloor k p (pairs n)) :
    logLikOf (fun w => (w : ℝ)) k pairs len lo hi p ≤
      logLikOf (fun w => (w : ℝ)) k pairs len lo hi (batch k pairs lo hi p) :=
  C129_weighted_partial k pairs len lo hi p hw hlen (trained_subNorm hw ht) hn

/-! ### The full property is false -/

/-- Source word 1 is translated by 5 in a pair of weight 1 and by 6 in a pair of weight 3. -/
def pairsW (n : Nat) : TPair := if n = 0 then ⟨[1], [5], 1⟩ else ⟨[1], [6], 3⟩

/-- Uniform parameters (for instance, loaded from files). -/
def parsU : Pars :=
  { lex := { num := [((0, 5), 1), ((0, 6), 1), ((1, 5), 1), ((1, 6), 1)], den := [(0, 2), (1, 2)] }
    al := { num := [], den := [] } }

theorem parsU_ok : TabOk parsU.lex := by
  refine ⟨by unfold AMap.Distinct; decide, ?_, ?_⟩
  · intro g
    show (AMap.lk [((0 : Nat), (2 : Rat)), (1, 2)] g).getD 0 = denSum [((0, 5), 1), ((0, 6), 1), ((1, 5), 1), ((1, 6), 1)] g
    unfold denSum
    simp only [sumBy_cons, sumBy_nil, AMap.lk]
    by_cases h0 : 0 = g
    · subst h0; decide +kernel
    · by_cases h1 : 1 = g
      · subst h1; decide +kernel
      · simp [h0, h1]
  · rintro ⟨s, t⟩ h
    simp only [parsU, AMap.lk, Prod.mk.injEq] at h ⊢
    by_cases h0 : 0 = s
    · subst h0; simp
    · by_cases h1 : 1 = s
      · subst h1; simp
      · simp [h0, h1] at h

theorem parsU_sub : SubNorm parsU := by
  have h0 : ∀ u, 0 ≤ numAt parsU.lex u := by
    intro u
    unfold numAt
    cases h : AMap.lk parsU.lex.num u with
    | none => exact le_refl _
    | some v =>
      have hm := mem_of_lk h
      have : ∀ e ∈ parsU.lex.num, 0 ≤ e.2 := by decide +kernel
      exact this _ hm
  have ha : ∀ s t, par parsU.al s t = 0 := fun s t => rfl
  refine ⟨⟨fun s t => (par_sum parsU_ok h0 s List.nodup_nil).2.2 t, fun s t => le_of_eq (ha s t).symm⟩,
    fun s T hT => (par_sum parsU_ok h0 s hT).2.1, fun s T _ => ?_⟩
  rw [sumBy_zero (fun t _ => ha s t)]; decide

theorem usable_W (n : Nat) : Usable (pairsW n) := by
  unfold pairsW Usable
  split <;> decide

theorem noFloor_W (n : Nat) : NoFloor .ibm1 parsU (pairsW n) := by
  intro i j hi h1 h2
  unfold pairsW at *
  by_cases hn : n = 0
  · simp only [if_pos hn, List.length_cons, List.length_nil] at *
    have : j = 1 := by omega
    subst this
    have : i = 0 ∨ i = 1 := by omega
    rcases this with rfl | rfl <;> decide +kernel
  · simp only [if_neg hn, List.length_cons, List.length_nil] at *
    have : j = 1 := by omega
    subst this
    have : i = 0 ∨ i = 1 := by omega
    rcases this with rfl | rfl <;> decide +kernel

theorem C129_counterexample : ¬ C129_full := by
  intro hf
  have h := hf .ibm1 pairsW (fun _ => 1) 0 1 parsU (by intro n; unfold pairsW; split <;> decide) (fun _ => by decide) parsU_sub
    (fun n _ _ _ => noFloor_W n)
  have e : ∀ p, logLikOf (fun _ => 1) .ibm1 pairsW (fun _ => 1) 0 1 p =
      log ((calcProb .ibm1 p 1 [1] [5] : Rat) : ℝ) + log ((calcProb .ibm1 p 1 [1] [6] : Rat) : ℝ) := by
    intro p
    unfold logLikOf
    rw [show List.range' 0 (1 + 1 - 0) = [0, 1] from rfl, rsum_cons, rsum_cons, rsum_nil, if_pos (usable_W 0),
      if_pos (usable_W 1)]
    simp [pairsW]
  rw [e, e] at h
  have v1 : calcProb .ibm1 parsU 1 [1] [5] = 1 / 2 := by decide +kernel
  have v2 : calcProb .ibm1 parsU 1 [1] [6] = 1 / 2 := by decide +kernel
  have v3 : calcProb .ibm1 (batch .ibm1 pairsW 0 1 parsU) 1 [1] [5] = 1 / 4 := by decide +kernel
  have v4 : calcProb .ibm1 (batch .ibm1 pairsW 0 1 parsU) 1 [1] [6] = 3 / 4 := by decide +kernel
  rw [v1, v2, v3, v4, ← log_mul (by norm_num) (by norm_num), ← log_mul (by norm_num) (by norm_num)] at h
  rw [log_le_log_iff (by norm_num) (by norm_num)] at h
  norm_num at h

/-! ### Non-vacuity: the hypotheses of the partial theorem hold in the example above -/

example : SubNorm parsU ∧ (∀ n, Usable (pairsW n)) ∧ ∀ n, NoFloor .ibm1 parsU (pairsW n) := ⟨parsU_sub, usable_W, noFloor_W⟩

end Thot.Ibm
