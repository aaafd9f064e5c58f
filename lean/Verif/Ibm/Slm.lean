import Verif.Common.Sum
import Mathlib.Tactic.Ring
import Mathlib.Tactic.FieldSimp
import Mathlib.Tactic.Linarith
import Mathlib.Tactic.Positivity
import Mathlib.Algebra.Order.Field.Rat
/-!
# C130, C131, C132: the sentence length model

Model of `sw_models/WeightedIncrNormSlm.cc`, which estimates, for every source length, the weighted mean and variance of
the target lengths, one pair at a time. Simplifications: exact rational arithmetic instead of `float`; the cumulative
normal distribution is a parameter; a standard deviation that is a square root is represented by its square.
-/
namespace Thot.Ibm

open Thot Thot.Sum

/-- The members of `WeightedIncrNormSlm` (WeightedIncrNormSlm.h:85-91). -/
structure Slm where
  numSents : Nat
  slenSum : Nat
  tlenSum : Nat
  k : List Nat
  sw : List Rat
  mn : List Rat
  sk : List Rat

/-- The constructor and `clear` (WeightedIncrNormSlm.cc:32-37, 371-380). -/
def Slm.empty : Slm := ⟨0, 0, 0, [], [], [], []⟩

/-- `set_k`, `set_swk`, `set_mk`, `set_sk` (WeightedIncrNormSlm.cc:266-327): the vector grows with zeros. -/
def setAt {A : Type} (zero : A) (l : List A) (i : Nat) (v : A) : List A := (l ++ List.replicate (i + 1 - l.length) zero).set i v

/-- `get_k` (WeightedIncrNormSlm.cc:242-263): 0 for not found. -/
def Slm.getK (m : Slm) (slen : Nat) : Nat := if slen ≥ m.k.length then 0 else m.k.getD slen 0

/-- `get_swk`, `get_mk`, `get_sk` (WeightedIncrNormSlm.cc:275-279, 291-295, 307-311). -/
def getAt (l : List Rat) (slen : Nat) : Rat := if slen < l.length then l.getD slen 0 else 0

/-- `trainSentPair` (WeightedIncrNormSlm.cc:324-368), for the lengths of the sentences and the weight. -/
def Slm.train (m : Slm) (e : Nat × Nat × Rat) : Slm :=
  let slen := e.1
  let tlen : Rat := e.2.1
  let c := e.2.2
  if m.getK slen = 0 then
    { numSents := m.numSents + 1, slenSum := m.slenSum + slen, tlenSum := m.tlenSum + e.2.1
      k := setAt 0 m.k slen 1
      sk := setAt 0 m.sk slen 0
      mn := setAt 0 m.mn slen tlen
      sw := setAt 0 m.sw slen c }
  else
    let swk := getAt m.sw slen
    let temp := c + swk
    let mk := getAt m.mn slen
    { numSents := m.numSents + 1, slenSum := m.slenSum + slen, tlenSum := m.tlenSum + e.2.1
      k := setAt 0 m.k slen (m.getK slen + 1)
      sk := setAt 0 m.sk slen (getAt m.sk slen + (swk * c * ((tlen - mk) * (tlen - mk))) / temp)
      mn := setAt 0 m.mn slen (mk + ((tlen - mk) * c) / temp)
      sw := setAt 0 m.sw slen temp }

/-- `trainSentPairRange` (_sentLengthModel.cc:53-67) for the list of lengths and weights of a range. -/
def Slm.trainAll (m : Slm) (l : List (Nat × Nat × Rat)) : Slm := l.foldl Slm.train m

/-- `get_mean_stddev` (WeightedIncrNormSlm.cc:184-199), with the square of the standard deviation. -/
def Slm.meanVar (m : Slm) (slen : Nat) : Option (Rat × Rat) :=
  if m.getK slen < 2 then none
  else some (getAt m.mn slen, (getAt m.sk slen * m.getK slen) / (((m.getK slen : Rat) - 1) * getAt m.sw slen))

/-- A standard deviation: the square root of a value, or a value. -/
inductive Dev where
  | sqrtOf (v : Rat)
  | val (v : Rat)
  deriving DecidableEq

/-- The mean and deviation used for a source length (WeightedIncrNormSlm.cc:152-181). -/
def Slm.params (m : Slm) (slen : Nat) : Rat × Dev :=
  match m.meanVar slen with
  | some mv => (mv.1, .sqrtOf mv.2)
  | none =>
    let diff : Rat := if m.numSents ≠ 0 then (m.tlenSum : Rat) / m.numSents - (m.slenSum : Rat) / m.numSents else 0
    (slen + diff, .val ((slen + diff) * (1 / 4)))

/-- `sumSentLenProbNorm` (WeightedIncrNormSlm.cc:152-181), `cdf` being `MathFuncs::norm_cdf`. -/
def Slm.cum (cdf : Rat → Dev → Rat → Rat) (m : Slm) (slen tlen : Nat) : Rat :=
  cdf (m.params slen).1 (m.params slen).2 (tlen + 1 / 2)

/-- `tlen-1` on `unsigned int`. -/
def pred32 (t : Nat) : Nat := (t + (2 ^ 32 - 1)) % 2 ^ 32

/-- `SW_PROB_SMOOTH` (SwDefs.h:46). -/
def swSmooth : Rat := 1 / 10000000

/-- `sentLenProb` (WeightedIncrNormSlm.cc:111-149). -/
def Slm.lenProb (cdf : Rat → Dev → Rat → Rat) (m : Slm) (slen tlen : Nat) : Rat :=
  let p := m.cum cdf slen tlen - m.cum cdf slen (pred32 tlen)
  if p < swSmooth then swSmooth else p

/-! ### Specification -/

/-- Target lengths and weights of the pairs with source length `slen`. -/
def ofLen (slen : Nat) (l : List (Nat × Nat × Rat)) : List (Nat × Rat) := (l.filter fun e => e.1 = slen).map fun e => e.2

/-- Total weight. -/
def wsum (ps : List (Nat × Rat)) : Rat := sumBy (fun e => e.2) ps
/-- Weighted mean. -/
def wmean (ps : List (Nat × Rat)) : Rat := sumBy (fun e => e.2 * (e.1 : Rat)) ps / wsum ps
/-- Weighted sum of squared deviations from the mean. -/
def wdev (ps : List (Nat × Rat)) : Rat := sumBy (fun e => e.2 * (((e.1 : Rat) - wmean ps) * ((e.1 : Rat) - wmean ps))) ps

/-! ### Lemmas -/

theorem getD_setAt {A : Type} (zero : A) (l : List A) (i : Nat) (v : A) (j : Nat) :
    (setAt zero l i v).getD j zero = if j = i then v else l.getD j zero := by
  unfold setAt
  rw [List.getD_eq_getElem?_getD, List.getElem?_set]
  by_cases h : i = j
  · subst h
    rw [if_pos rfl, if_pos rfl, if_pos (by rw [List.length_append, List.length_replicate]; omega)]
    rfl
  · rw [if_neg h, if_neg (fun e => h e.symm), List.getD_eq_getElem?_getD]
    by_cases hl : j < l.length
    · rw [List.getElem?_append_left hl]
    · rw [List.getElem?_append_right (by omega), List.getElem?_eq_none (l := l) (by omega)]
      rw [List.getElem?_replicate]
      split <;> rfl

theorem getK_eq (m : Slm) (s : Nat) : m.getK s = m.k.getD s 0 := by
  unfold Slm.getK
  split
  · rw [List.getD_eq_getElem?_getD, List.getElem?_eq_none (by omega)]; rfl
  · rfl

theorem getAt_eq (l : List Rat) (s : Nat) : getAt l s = l.getD s 0 := by
  unfold getAt
  split
  · rfl
  · rw [List.getD_eq_getElem?_getD, List.getElem?_eq_none (by omega)]; rfl

theorem train_other (m : Slm) (e : Nat × Nat × Rat) (s : Nat) (h : s ≠ e.1) :
    (m.train e).getK s = m.getK s ∧ getAt (m.train e).sw s = getAt m.sw s ∧ getAt (m.train e).mn s = getAt m.mn s ∧
      getAt (m.train e).sk s = getAt m.sk s := by
  unfold Slm.train
  dsimp only
  split <;> simp only [getK_eq, getAt_eq, getD_setAt, if_neg h] <;> exact ⟨trivial, trivial, trivial, trivial⟩

theorem ofLen_snoc (s : Nat) (l : List (Nat × Nat × Rat)) (e : Nat × Nat × Rat) :
    ofLen s (l ++ [e]) = if e.1 = s then ofLen s l ++ [e.2] else ofLen s l := by
  unfold ofLen
  rw [List.filter_append, List.map_append]
  by_cases h : e.1 = s
  · simp [h]
  · simp [h]

theorem wsum_pos {ps : List (Nat × Rat)} (h : ∀ e ∈ ps, 0 < e.2) (hne : ps ≠ []) : 0 < wsum ps := by
  unfold wsum
  induction ps with
  | nil => exact absurd rfl hne
  | cons a ps ih =>
    rw [sumBy_cons]
    have ha := h a List.mem_cons_self
    have := sumBy_nonneg (f := fun e : Nat × Rat => e.2) (l := ps) (fun e he => (h e (List.mem_cons_of_mem _ he)).le)
    linarith

theorem wmean_snoc (ps : List (Nat × Rat)) (e : Nat × Rat) (hW : 0 < wsum ps) (hc : 0 < e.2) :
    wmean (ps ++ [e]) = wmean ps + ((e.1 : Rat) - wmean ps) * e.2 / (e.2 + wsum ps) := by
  have hs : wsum (ps ++ [e]) = wsum ps + e.2 := by unfold wsum; rw [sumBy_append, sumBy_cons, sumBy_nil]; ring
  have hn : sumBy (fun e => e.2 * (e.1 : Rat)) (ps ++ [e]) = wmean ps * wsum ps + e.2 * e.1 := by
    rw [sumBy_append, sumBy_cons, sumBy_nil]
    unfold wmean
    rw [div_mul_cancel₀ _ hW.ne']; ring
  rw [show wmean (ps ++ [e]) = sumBy (fun e => e.2 * (e.1 : Rat)) (ps ++ [e]) / wsum (ps ++ [e]) from rfl, hs, hn]
  have : wsum ps + e.2 ≠ 0 := by positivity
  have h2 : e.2 + wsum ps ≠ 0 := by positivity
  field_simp
  ring

/-- Sum of squared deviations from any point. -/
theorem dev_shift (ps : List (Nat × Rat)) (hW : 0 < wsum ps) (x : Rat) :
    sumBy (fun e => e.2 * (((e.1 : Rat) - x) * ((e.1 : Rat) - x))) ps =
      wdev ps + wsum ps * ((wmean ps - x) * (wmean ps - x)) := by
  have h1 : sumBy (fun e => e.2 * ((e.1 : Rat) - wmean ps)) ps = 0 := by
    have : sumBy (fun e => e.2 * ((e.1 : Rat) - wmean ps)) ps =
        sumBy (fun e => e.2 * (e.1 : Rat)) ps + (- wmean ps) * wsum ps := by
      unfold wsum
      rw [← sumBy_mul, ← sumBy_add]
      apply sumBy_congr; intro e _; ring
    rw [this]
    unfold wmean
    field_simp
    ring
  have e : ∀ e ∈ ps, e.2 * (((e.1 : Rat) - x) * ((e.1 : Rat) - x)) =
      e.2 * (((e.1 : Rat) - wmean ps) * ((e.1 : Rat) - wmean ps)) +
      ((2 * (wmean ps - x)) * (e.2 * ((e.1 : Rat) - wmean ps)) + ((wmean ps - x) * (wmean ps - x)) * e.2) := by
    intro e _; ring
  rw [sumBy_congr e, sumBy_add, sumBy_add, sumBy_mul, sumBy_mul, h1]
  unfold wdev wsum
  ring

theorem wdev_snoc (ps : List (Nat × Rat)) (e : Nat × Rat) (hW : 0 < wsum ps) (hc : 0 < e.2) :
    wdev (ps ++ [e]) = wdev ps +
      (wsum ps * e.2 * (((e.1 : Rat) - wmean ps) * ((e.1 : Rat) - wmean ps))) / (e.2 + wsum ps) := by
  rw [show wdev (ps ++ [e]) = sumBy (fun e' => e'.2 * (((e'.1 : Rat) - wmean (ps ++ [e])) *
    ((e'.1 : Rat) - wmean (ps ++ [e])))) (ps ++ [e]) from rfl, sumBy_append, sumBy_cons, sumBy_nil, dev_shift ps hW,
    wmean_snoc ps e hW hc]
  have h2 : e.2 + wsum ps ≠ 0 := by positivity
  field_simp
  ring

/-! ### C130 -/

/-- C130: after training on any list of pairs with positive weights, the model holds, for every source length, the
number of pairs, their total weight, the weighted mean of the target lengths and the weighted sum of squared deviations
from that mean. -/
theorem C130_stats (l : List (Nat × Nat × Rat)) (hw : ∀ e ∈ l, 0 < e.2.2) (s : Nat) :
    let m := Slm.empty.trainAll l
    m.getK s = (ofLen s l).length ∧
    (ofLen s l ≠ [] → getAt m.sw s = wsum (ofLen s l) ∧ getAt m.mn s = wmean (ofLen s l) ∧ getAt m.sk s = wdev (ofLen s l)) ∧
    m.numSents = l.length ∧ m.slenSum = (l.map fun e => e.1).sum ∧ m.tlenSum = (l.map fun e => e.2.1).sum := by
  induction l using List.reverseRecOn with
  | nil => exact ⟨rfl, fun h => absurd rfl h, rfl, rfl, rfl⟩
  | append_singleton l e ih =>
    have hwl : ∀ x ∈ l, 0 < x.2.2 := fun x hx => hw x (List.mem_append_left _ hx)
    have hc : 0 < e.2.2 := hw e (List.mem_append_right _ List.mem_cons_self)
    obtain ⟨a1, a2, a3, a4, a5⟩ := ih hwl
    have hm : Slm.empty.trainAll (l ++ [e]) = (Slm.empty.trainAll l).train e := by
      unfold Slm.trainAll; rw [List.foldl_append]; rfl
    dsimp only at a1 a2 a3 a4 a5 ⊢
    rw [hm]
    generalize Slm.empty.trainAll l = m at a1 a2 a3 a4 a5
    rw [ofLen_snoc]
    have hcnt : (m.train e).numSents = m.numSents + 1 ∧ (m.train e).slenSum = m.slenSum + e.1 ∧
        (m.train e).tlenSum = m.tlenSum + e.2.1 := by
      unfold Slm.train; dsimp only; split <;> exact ⟨rfl, rfl, rfl⟩
    have hfin : (m.train e).numSents = (l ++ [e]).length ∧ (m.train e).slenSum = ((l ++ [e]).map fun e => e.1).sum ∧
        (m.train e).tlenSum = ((l ++ [e]).map fun e => e.2.1).sum := by
      rw [hcnt.1, hcnt.2.1, hcnt.2.2, a3, a4, a5]
      simp
    by_cases hs : e.1 = s
    · rw [if_pos hs]
      refine ⟨?_, ?_, hfin⟩
      · unfold Slm.train
        dsimp only
        split
        · rename_i h0
          rw [getK_eq, getD_setAt, if_pos hs.symm]
          rw [hs, a1] at h0
          simp [h0]
        · rw [getK_eq, getD_setAt, if_pos hs.symm, hs, a1]
          simp
      · intro _
        by_cases hne : ofLen s l = []
        · have h0 : m.getK e.1 = 0 := by rw [hs, a1, hne]; rfl
          unfold Slm.train
          dsimp only
          rw [if_pos h0]
          simp only [getAt_eq, getD_setAt, if_pos hs.symm]
          rw [hne, List.nil_append]
          have e1 : wsum [e.2] = e.2.2 := by unfold wsum; rw [sumBy_cons, sumBy_nil]; ring
          have e2 : wmean [e.2] = (e.2.1 : Rat) := by
            unfold wmean; rw [e1, sumBy_cons, sumBy_nil]; field_simp; ring
          refine ⟨e1.symm, e2.symm, ?_⟩
          unfold wdev
          rw [e2, sumBy_cons, sumBy_nil]; ring
        · obtain ⟨b1, b2, b3⟩ := a2 hne
          have h0 : ¬ m.getK e.1 = 0 := by
            rw [hs, a1]; intro h; exact hne (List.length_eq_zero_iff.1 h)
          have hW : 0 < wsum (ofLen s l) := by
            apply wsum_pos _ hne
            intro x hx
            unfold ofLen at hx
            obtain ⟨y, hy, rfl⟩ := List.mem_map.1 hx
            exact hwl y (List.mem_filter.1 hy).1
          unfold Slm.train
          dsimp only
          rw [if_neg h0]
          rw [hs, b1, b2, b3]
          simp only [getAt_eq, getD_setAt, if_true]
          refine ⟨?_, ?_, ?_⟩
          · unfold wsum; rw [sumBy_append, sumBy_cons, sumBy_nil]; ring
          · rw [wmean_snoc _ _ hW hc]
          · rw [wdev_snoc _ _ hW hc]
    · rw [if_neg hs]
      obtain ⟨t1, t2, t3, t4⟩ := train_other m e s (fun h => hs h.symm)
      rw [t1, t2, t3, t4]
      exact ⟨a1, a2, hfin⟩

/-- The estimates of the mean and the variance for a source length: available from two pairs, weighted mean, and weighted
variance corrected by n/(n-1). -/
def estimate (ps : List (Nat × Rat)) : Option (Rat × Rat) :=
  if ps.length < 2 then none
  else some (wmean ps, (ps.length : Rat) / ((ps.length : Rat) - 1) * (wdev ps / wsum ps))

/-- C130: the mean and variance used for a source length are those estimates; for source lengths with fewer than two pairs
the mean is the source length plus the difference of the average lengths of all the pairs, and the deviation a quarter of
the mean. -/
theorem C130_params (l : List (Nat × Nat × Rat)) (hw : ∀ e ∈ l, 0 < e.2.2) (s : Nat) :
    (Slm.empty.trainAll l).params s =
      match estimate (ofLen s l) with
      | some mv => (mv.1, .sqrtOf mv.2)
      | none =>
        let mean : Rat := s + (if l = [] then 0 else
          (((l.map fun e => e.2.1).sum : Nat) : Rat) / l.length - (((l.map fun e => e.1).sum : Nat) : Rat) / l.length)
        (mean, .val (mean / 4)) := by
  obtain ⟨a1, a2, a3, a4, a5⟩ := C130_stats l hw s
  unfold Slm.params Slm.meanVar estimate
  rw [a1]
  by_cases h2 : (ofLen s l).length < 2
  · rw [if_pos h2, if_pos h2]
    dsimp only
    rw [a3, a4, a5]
    by_cases hl : l = []
    · subst hl
      simp
      ring
    · have : l.length ≠ 0 := fun h => hl (List.length_eq_zero_iff.1 h)
      rw [if_pos this, if_neg hl]
      have e : ∀ x : Rat, x * (1 / 4) = x / 4 := fun x => by ring
      rw [e]
  · rw [if_neg h2, if_neg h2]
    have hne : ofLen s l ≠ [] := by intro h; rw [h] at h2; simp at h2
    obtain ⟨b1, b2, b3⟩ := a2 hne
    dsimp only
    rw [b1, b2, b3]
    have hW : 0 < wsum (ofLen s l) := by
      apply wsum_pos _ hne
      intro x hx
      unfold ofLen at hx
      obtain ⟨y, hy, rfl⟩ := List.mem_map.1 hx
      exact hw y (List.mem_filter.1 hy).1
    have hn : ((ofLen s l).length : Rat) - 1 ≠ 0 := by
      have : (2 : Rat) ≤ ((ofLen s l).length : Rat) := by exact_mod_cast (by omega : 2 ≤ (ofLen s l).length)
      intro h; linarith
    congr 2
    field_simp

/-- C130: the order of the pairs does not matter. -/
theorem C130_order (l l' : List (Nat × Nat × Rat)) (hp : l.Perm l') (hw : ∀ e ∈ l, 0 < e.2.2) (s : Nat) :
    (Slm.empty.trainAll l).params s = (Slm.empty.trainAll l').params s := by
  rw [C130_params l hw, C130_params l' (fun e he => hw e (hp.mem_iff.2 he))]
  have hq : (ofLen s l).Perm (ofLen s l') := (hp.filter _).map _
  have e1 : estimate (ofLen s l) = estimate (ofLen s l') := by
    have hm : wmean (ofLen s l) = wmean (ofLen s l') := by
      unfold wmean wsum; rw [sumBy_perm _ hq, sumBy_perm _ hq]
    unfold estimate wdev wsum
    rw [hm, hq.length_eq, sumBy_perm _ hq, sumBy_perm _ hq]
  rw [e1, hp.length_eq, (hp.map _).sum_eq, (hp.map _).sum_eq]
  have : l = [] ↔ l' = [] := by
    constructor
    · rintro rfl; exact List.nil_perm.1 hp
    · rintro rfl; exact List.perm_nil.1 hp
  simp only [this]

/-! ### C131: training again on the same pairs -/

/-- The full property: training again on the same pairs (as each further iteration of EM does) does not change the
distribution of the lengths. -/
def C131_full : Prop :=
  ∀ (l : List (Nat × Nat × Rat)) (r : Nat) (s : Nat), (∀ e ∈ l, 0 < e.2.2) → 1 ≤ r →
    (Slm.empty.trainAll (List.replicate r l).flatten).params s = (Slm.empty.trainAll l).params s

theorem C131_counterexample : ¬ C131_full := by
  intro h
  have := h [(1, 1, 1), (1, 3, 1)] 2 1 (by decide) (by decide)
  revert this
  decide +kernel

theorem ofLen_replicate (s r : Nat) (l : List (Nat × Nat × Rat)) :
    ofLen s (List.replicate r l).flatten = (List.replicate r (ofLen s l)).flatten := by
  induction r with
  | zero => rfl
  | succ r ih =>
    rw [List.replicate_succ, List.flatten_cons, List.replicate_succ, List.flatten_cons, ← ih]
    unfold ofLen
    rw [List.filter_append, List.map_append]

theorem sumBy_replicate {A : Type} (f : A → Rat) (r : Nat) (l : List A) :
    sumBy f (List.replicate r l).flatten = r * sumBy f l := by
  induction r with
  | zero => simp [sumBy_nil]
  | succ r ih => rw [List.replicate_succ, List.flatten_cons, sumBy_append, ih]; push_cast; ring

/-- C131 (partial: the mean, for source lengths with two pairs or more): after `r` passes over the same pairs the mean is
that of one pass, but the variance is smaller: with `n` pairs, corrected by rn/(rn-1) instead of n/(n-1). -/
theorem C131_mean_partial (l : List (Nat × Nat × Rat)) (hw : ∀ e ∈ l, 0 < e.2.2) (r : Nat) (hr : 1 ≤ r) (s : Nat)
    (hn : 2 ≤ (ofLen s l).length) :
    (Slm.empty.trainAll (List.replicate r l).flatten).params s =
      (wmean (ofLen s l), .sqrtOf ((r * (ofLen s l).length : Rat) / (r * (ofLen s l).length - 1) *
        (wdev (ofLen s l) / wsum (ofLen s l)))) := by
  have hw' : ∀ e ∈ (List.replicate r l).flatten, 0 < e.2.2 := by
    intro e he
    rw [List.mem_flatten] at he
    obtain ⟨l', hl', he⟩ := he
    rw [List.eq_of_mem_replicate hl'] at he
    exact hw e he
  rw [C130_params _ hw', ofLen_replicate]
  generalize ofLen s l = ps at hn
  have hlen : (List.replicate r ps).flatten.length = r * ps.length := by simp
  have h2 : 2 ≤ r * ps.length := le_trans hn (Nat.le_mul_of_pos_left _ hr)
  have hr0 : (r : Rat) ≠ 0 := by exact_mod_cast (by omega : r ≠ 0)
  have e1 : wsum (List.replicate r ps).flatten = r * wsum ps := sumBy_replicate _ r ps
  have e2 : wmean (List.replicate r ps).flatten = wmean ps := by
    unfold wmean
    rw [e1, sumBy_replicate, mul_div_mul_left _ _ hr0]
  have e3 : wdev (List.replicate r ps).flatten = r * wdev ps := by
    unfold wdev
    rw [e2, sumBy_replicate]
  unfold estimate
  rw [hlen, if_neg (by omega)]
  dsimp only
  rw [e1, e2, e3, mul_div_mul_left _ _ hr0]
  push_cast
  rfl

/-! ### C132: the distribution over lengths -/

/-- A deviation that is not negative. -/
def Dev.nonneg : Dev → Prop
  | .sqrtOf _ => True
  | .val v => 0 ≤ v

/-- What is required of the cumulative distribution: values in [0,1], nondecreasing when the deviation is not negative. -/
structure IsCdf (cdf : Rat → Dev → Rat → Rat) : Prop where
  range : ∀ m d x, 0 ≤ cdf m d x ∧ cdf m d x ≤ 1
  mono : ∀ m (d : Dev) x y, d.nonneg → x ≤ y → cdf m d x ≤ cdf m d y

/-- The deviation is not negative for source lengths seen twice, and for those at least as long as the excess of the source
over the target average length. -/
theorem params_nonneg (l : List (Nat × Nat × Rat)) (hw : ∀ e ∈ l, 0 < e.2.2) (s : Nat)
    (h : 2 ≤ (ofLen s l).length ∨ (((l.map fun e => e.1).sum : Nat) : Rat) ≤ ((l.map fun e => e.2.1).sum : Nat) + s * l.length) :
    ((Slm.empty.trainAll l).params s).2.nonneg := by
  rw [C130_params l hw]
  unfold estimate
  by_cases h2 : (ofLen s l).length < 2
  · rw [if_pos h2]
    dsimp only [Dev.nonneg]
    rcases h with h | h
    · omega
    · by_cases hl : l = []
      · rw [if_pos hl]
        have : (0 : Rat) ≤ s := by exact_mod_cast Nat.zero_le _
        linarith
      · rw [if_neg hl]
        have hpos : (0 : Rat) < l.length := by
          have : 0 < l.length := List.length_pos_iff.2 hl
          exact_mod_cast this
        have : (s : Rat) + ((((l.map fun e => e.2.1).sum : Nat) : Rat) / l.length - (((l.map fun e => e.1).sum : Nat) : Rat) / l.length)
            = ((((l.map fun e => e.2.1).sum : Nat) : Rat) + s * l.length - (((l.map fun e => e.1).sum : Nat) : Rat)) / l.length := by
          field_simp
          ring
        rw [this]
        have : (0 : Rat) ≤ (((l.map fun e => e.2.1).sum : Nat) : Rat) + s * l.length - (((l.map fun e => e.1).sum : Nat) : Rat) := by
          linarith
        positivity
  · rw [if_neg h2]; trivial

theorem pred32_succ (t : Nat) (h : t < 2 ^ 32) (h1 : 1 ≤ t) : pred32 t = t - 1 := by
  unfold pred32; omega

/-- C132: no length has probability below 1e-7; the empty target sentence always has exactly that probability (`tlen-1` wraps around); and the
probabilities of the lengths from 1 to N add up to at most 1 plus N times 1e-7. -/
theorem C132_lengths (cdf : Rat → Dev → Rat → Rat) (hc : IsCdf cdf) (m : Slm) (slen : Nat)
    (hd : (m.params slen).2.nonneg) :
    (∀ t, swSmooth ≤ m.lenProb cdf slen t) ∧ m.lenProb cdf slen 0 = swSmooth ∧
    ∀ N, N < 2 ^ 32 → sumBy (m.lenProb cdf slen) (List.range' 1 N) ≤ 1 + N * swSmooth := by
  refine ⟨?_, ?_, ?_⟩
  · intro t
    unfold Slm.lenProb
    dsimp only
    split
    · exact le_refl _
    · rename_i h; exact not_lt.1 h
  · unfold Slm.lenProb
    dsimp only
    rw [if_pos]
    have : m.cum cdf slen 0 ≤ m.cum cdf slen (pred32 0) := by
      unfold Slm.cum
      apply hc.mono _ _ _ _ hd
      have : (0 : Rat) ≤ (pred32 0 : Rat) := by exact_mod_cast Nat.zero_le _
      push_cast
      linarith
    have : (0 : Rat) < swSmooth := by unfold swSmooth; norm_num
    linarith
  · intro N hN
    have key : ∀ n, n ≤ N → sumBy (m.lenProb cdf slen) (List.range' 1 n) ≤
        m.cum cdf slen n - m.cum cdf slen 0 + n * swSmooth := by
      intro n
      induction n with
      | zero => intro _; simp [sumBy_nil]
      | succ n ih =>
        intro hn
        have i := ih (by omega)
        rw [List.range'_concat, sumBy_append, sumBy_cons, sumBy_nil, Nat.one_mul, Nat.add_comm 1 n]
        have hmono : m.cum cdf slen n ≤ m.cum cdf slen (n + 1) := by
          unfold Slm.cum
          apply hc.mono _ _ _ _ hd
          push_cast; linarith
        have : m.lenProb cdf slen (n + 1) ≤ m.cum cdf slen (n + 1) - m.cum cdf slen n + swSmooth := by
          unfold Slm.lenProb
          dsimp only
          rw [pred32_succ (n + 1) (by omega) (by omega), Nat.add_sub_cancel]
          have hs : (0 : Rat) < swSmooth := by unfold swSmooth; norm_num
          split <;> linarith
        push_cast
        linarith
    have := key N (le_refl _)
    have h1 := (hc.range (m.params slen).1 (m.params slen).2 ((N : Rat) + 1 / 2)).2
    have h2 := (hc.range (m.params slen).1 (m.params slen).2 (((0 : Nat) : Rat) + 1 / 2)).1
    unfold Slm.cum at this
    linarith

/-- C132: without the floor the probability of a length from 1 is that of the interval around it. -/
theorem C132_interval (cdf : Rat → Dev → Rat → Rat) (m : Slm) (slen t : Nat) (h1 : 1 ≤ t) (h2 : t < 2 ^ 32)
    (hf : swSmooth ≤ cdf (m.params slen).1 (m.params slen).2 (t + 1 / 2) - cdf (m.params slen).1 (m.params slen).2 (t - 1 / 2)) :
    m.lenProb cdf slen t =
      cdf (m.params slen).1 (m.params slen).2 (t + 1 / 2) - cdf (m.params slen).1 (m.params slen).2 (t - 1 / 2) := by
  unfold Slm.lenProb Slm.cum
  dsimp only
  rw [pred32_succ t h2 h1, show ((t - 1 : Nat) : Rat) + 1 / 2 = (t : Rat) - 1 / 2 by
    rw [Nat.cast_sub h1]; push_cast; ring]
  rw [if_neg (not_lt.2 hf)]

/-! ### Non-vacuity -/

example : (Slm.empty.trainAll [(2, 1, 1), (3, 4, 2), (2, 4, 2)]).params 2 = (3, .sqrtOf 4) := by decide +kernel
example : (Slm.empty.trainAll [(2, 1, 1), (3, 4, 2), (2, 4, 2)]).params 5 = (17 / 3, .val (17 / 12)) := by decide +kernel
example : IsCdf (fun m _ x => if x < m then 0 else 1) := by
  refine ⟨fun m d x => ?_, fun m d x y _ h => ?_⟩
  · split <;> decide
  · by_cases h1 : y < m
    · rw [if_pos h1, if_pos (lt_of_le_of_lt h h1)]
    · rw [if_neg h1]; split <;> decide

end Thot.Ibm
