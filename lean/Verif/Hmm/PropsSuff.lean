import Verif.Hmm.SuffLemmas
/-!
# C109: incremental training counts every sentence pair exactly once

After any sequence of training calls over any ranges, each numerator is the sum, over the sentence pairs trained so far,
of their most recent expected values; denominators are the sums of the numerators.  True when the memory of expected
values is unrestricted, and for batch training; false for a bounded memory.
-/
namespace Thot.Hmm

open Thot Thot.Sum

variable {γ G X : Type} [DecidableEq γ] [DecidableEq G] [DecidableEq X]

theorem lastVals_snoc (h : List (Call γ)) (c : Call γ) (n : Nat) :
    lastVals (h ++ [c]) n = if c.lo ≤ n ∧ n ≤ c.hi then some (c.new n) else lastVals h n := by
  induction h with
  | nil => rfl
  | cons d h ih =>
    rw [List.cons_append, lastVals, ih]
    by_cases hc : c.lo ≤ n ∧ n ≤ c.hi
    · rw [if_pos hc, if_pos hc]
    · rw [if_neg hc, if_neg hc, lastVals]

theorem lastVals_none {h : List (Call γ)} {n : Nat} (hb : ∀ c ∈ h, c.hi < n) : lastVals h n = none := by
  induction h with
  | nil => rfl
  | cons d h ih =>
    rw [lastVals, ih (fun c hc => hb c (List.mem_cons_of_mem _ hc))]
    have := hb d List.mem_cons_self
    dsimp only
    rw [if_neg (by omega)]

/-- What an unrestricted memory holds after the calls. -/
def heldVal (corpus : Nat → Option (Sent γ G X)) (h : List (Call γ)) (n : Nat) (c : γ) : Option Rat :=
  match corpus n, lastVals h n with
  | some snt, some v => if c ∈ snt.cells.map Prod.fst then some (v c) else none
  | _, _ => none

theorem oldC_contribOf {corpus : Nat → Option (Sent γ G X)} {h : List (Call γ)} {m : Mem γ}
    (hm : ∀ n c, recall m n c = heldVal corpus h n c) (key : G × X) (n : Nat) :
    oldC corpus m key n = contribOf corpus h key n := by
  unfold oldC contribOf
  cases hc : corpus n with
  | none => rfl
  | some snt =>
    dsimp only
    cases hl : lastVals h n with
    | none =>
      dsimp only
      apply sumBy_zero
      intro c _
      rw [hm]
      unfold heldVal
      rw [hc, hl]
      simp [wcurr]
    | some v =>
      dsimp only
      unfold contrib
      apply sumBy_congr
      intro c hcm
      rw [hm]
      unfold heldVal
      rw [hc, hl]
      have : c.1 ∈ snt.cells.map Prod.fst := List.mem_map_of_mem hcm
      simp only [this, if_true, wcurr]

/-- Invariant of a sequence of calls with unrestricted memory. -/
structure Inv (corpus : Nat → Option (Sent γ G X)) (h : List (Call γ)) (st : Est γ G X) : Prop where
  maxn : st.mem.maxn = none
  held : ∀ n c, recall st.mem n c = heldVal corpus h n c
  tab : TabOk st.tab
  num : ∀ N, (∀ c ∈ h, c.hi < N) → ∀ key, numAt st.tab key = sumBy (contribOf corpus h key) (List.range N)
  key : ∀ key, (AMap.lk st.tab.num key).isSome → KeyOf corpus key

theorem sum_range_restrict (f : Nat → Rat) {lo hi N : Nat} (h : hi < N) :
    sumBy f (List.range' lo (hi + 1 - lo)) = sumBy (fun n => if lo ≤ n ∧ n ≤ hi then f n else 0) (List.range N) := by
  have hp : (List.range' lo (hi + 1 - lo)).Perm ((List.range N).filter fun n => decide (lo ≤ n ∧ n ≤ hi)) := by
    rw [List.perm_ext_iff_of_nodup List.nodup_range' (List.nodup_range.filter _)]
    intro a
    simp only [List.mem_range'_1, List.mem_filter, List.mem_range, decide_eq_true_eq]
    omega
  rw [sumBy_perm f hp, sumBy_filter]
  apply sumBy_congr
  intro n _
  by_cases hn : lo ≤ n ∧ n ≤ hi
  · simp [hn]
  · simp [hn]

theorem inv_train {corpus : Nat → Option (Sent γ G X)} (hc : CellsOk corpus) {h : List (Call γ)} {st : Est γ G X}
    (i : Inv corpus h st) (c : Call γ) : Inv corpus (h ++ [c]) (train corpus st c.lo c.hi c.new) := by
  unfold train gatherRange
  dsimp only
  obtain ⟨a1, a2, a3, a4, a5⟩ := gatherList_spec hc (m := st.mem) (by rw [i.maxn]; exact .unrestricted) c.new
    (List.range' c.lo (c.hi + 1 - c.lo)) List.nodup_range' []
  obtain ⟨b1, b2, b3, b4⟩ := updateAll_spec _ (a4 AMap.distinct_nil) i.tab
  refine ⟨a1.trans i.maxn, ?_, b1, ?_, ?_⟩
  · intro n cl
    dsimp only
    rw [a2, i.held]
    unfold heldVal
    rw [lastVals_snoc]
    by_cases hn : c.lo ≤ n ∧ n ≤ c.hi
    · have hmem : n ∈ List.range' c.lo (c.hi + 1 - c.lo) := by rw [List.mem_range'_1]; omega
      rw [if_pos hn]
      cases hcn : corpus n with
      | none => simp
      | some snt =>
        dsimp only
        by_cases hcl : cl ∈ snt.cells.map Prod.fst
        · rw [if_pos ⟨i.maxn, hmem, snt, rfl, hcl⟩, if_pos hcl]
        · rw [if_neg hcl, if_neg]
          · cases lastVals h n with
            | none => rfl
            | some v => dsimp only; rw [if_neg hcl]
          · rintro ⟨_, _, s, hs, hm⟩
            cases hs
            exact hcl hm
    · have hmem : ¬ n ∈ List.range' c.lo (c.hi + 1 - c.lo) := by rw [List.mem_range'_1]; omega
      rw [if_neg hn, if_neg (fun hh => hmem hh.2.1)]
  · intro N hN key
    dsimp only
    have hN1 : ∀ d ∈ h, d.hi < N := fun d hd => hN d (List.mem_append_left _ hd)
    have hN2 : c.hi < N := hN c (List.mem_append_right _ List.mem_cons_self)
    rw [b2, a3, i.num N hN1]
    simp only [auxAt, AMap.lk, Option.getD_none]
    rw [sum_range_restrict _ hN2, sum_range_restrict _ hN2]
    have e : sumBy (contribOf corpus (h ++ [c]) key) (List.range N) +
        sumBy (fun n => if c.lo ≤ n ∧ n ≤ c.hi then oldC corpus st.mem key n else 0) (List.range N) =
        sumBy (contribOf corpus h key) (List.range N) +
        sumBy (fun n => if c.lo ≤ n ∧ n ≤ c.hi then newC corpus c.new key n else 0) (List.range N) := by
      rw [← sumBy_add, ← sumBy_add]
      apply sumBy_congr
      intro n _
      by_cases hn : c.lo ≤ n ∧ n ≤ c.hi
      · rw [if_pos hn, if_pos hn, oldC_contribOf i.held]
        have : contribOf corpus (h ++ [c]) key n = newC corpus c.new key n := by
          unfold contribOf newC
          rw [lastVals_snoc, if_pos hn]
          cases corpus n <;> rfl
        rw [this]; grind
      · rw [if_neg hn, if_neg hn]
        have : contribOf corpus (h ++ [c]) key n = contribOf corpus h key n := by
          unfold contribOf
          rw [lastVals_snoc, if_neg hn]
        rw [this]
    grind
  · intro key hk
    rcases b3 key hk with hk | hk
    · rcases a5 key hk with hk | hk
      · exact hk
      · simp [AMap.lk] at hk
    · exact i.key key hk

theorem inv_run {corpus : Nat → Option (Sent γ G X)} (hc : CellsOk corpus) (h : List (Call γ)) :
    Inv corpus h (runCalls corpus none h) := by
  have base : Inv corpus [] ({ mem := Mem.empty none, tab := { num := [], den := [] } } : Est γ G X) := by
    refine ⟨rfl, ?_, tabOk_empty, ?_, ?_⟩
    · intro n c; unfold recall heldVal Mem.empty; cases corpus n <;> rfl
    · intro N _ key
      rw [sumBy_zero]
      · rfl
      · intro n _; unfold contribOf; cases corpus n <;> rfl
    · intro key hk; simp [AMap.lk] at hk
  have gen : ∀ (l h0 : List (Call γ)) (st : Est γ G X), Inv corpus h0 st →
      Inv corpus (h0 ++ l) (l.foldl (fun st c => train corpus st c.lo c.hi c.new) st) := by
    intro l
    induction l with
    | nil => intro h0 st i; rw [List.append_nil]; exact i
    | cons c l ih =>
      intro h0 st i
      have := ih (h0 ++ [c]) _ (inv_train hc i c)
      rw [List.append_assoc] at this
      exact this
  have := gen h [] _ base
  rw [List.nil_append] at this
  exact this

/-! ### C109 -/

/-- The numerator of a parameter is the sum, over the sentence pairs trained so far, of their latest expected values
times their weights. -/
def Counts (corpus : Nat → Option (Sent γ G X)) (h : List (Call γ)) (t : Tables G X) : Prop :=
  ∀ N, (∀ c ∈ h, c.hi < N) → ∀ key, (AMap.lk t.num key).getD 0 = sumBy (contribOf corpus h key) (List.range N)

/-- Every denominator is the sum of the numerators stored under it. -/
def DensOk (t : Tables G X) : Prop :=
  ∀ g, (AMap.lk t.den g).getD 0 = sumBy (fun e => if e.1.1 = g then e.2 else 0) t.num

/-- The full property: whatever the size of the memory of expected values. -/
def C109_full : Prop :=
  ∀ (corpus : Nat → Option (Sent (Nat × Nat) Nat Nat)) (maxn : Option Nat) (h : List (Call (Nat × Nat))),
    CellsOk corpus → Counts corpus h (runCalls corpus maxn h).tab ∧ DensOk (runCalls corpus maxn h).tab

/-- C109 (partial: unrestricted memory), with the tables free of duplicates and of parameters nobody contributes to. -/
theorem C109_counts_partial (corpus : Nat → Option (Sent γ G X)) (hc : CellsOk corpus) (h : List (Call γ)) :
    Counts corpus h (runCalls corpus none h).tab ∧ DensOk (runCalls corpus none h).tab ∧
    ((runCalls corpus none h).tab.num.map Prod.fst).Nodup ∧
    ∀ key, (AMap.lk (runCalls corpus none h).tab.num key).isSome →
      ∃ n snt, corpus n = some snt ∧ key ∈ snt.cells.map Prod.snd := by
  have i := inv_run hc h
  exact ⟨i.num, i.tab.den, i.tab.dist, i.key⟩

/-- C109: retraining a range with the same expected values changes no numerator, whatever was trained before or
meanwhile on other pairs. -/
theorem C109_idempotent (corpus : Nat → Option (Sent γ G X)) (hc : CellsOk corpus) (h : List (Call γ)) (c : Call γ)
    (key : G × X) :
    (AMap.lk (runCalls corpus none (h ++ [c] ++ [c])).tab.num key).getD 0 =
      (AMap.lk (runCalls corpus none (h ++ [c])).tab.num key).getD 0 := by
  obtain ⟨N, hN⟩ : ∃ N, ∀ d ∈ h ++ [c] ++ [c], d.hi < N := by
    generalize h ++ [c] ++ [c] = l
    induction l with
    | nil => exact ⟨0, fun d hd => by cases hd⟩
    | cons d l ih =>
      obtain ⟨N, hN⟩ := ih
      refine ⟨N + d.hi + 1, fun e he => ?_⟩
      rcases List.mem_cons.1 he with rfl | he
      · omega
      · have := hN e he; omega
  rw [(C109_counts_partial corpus hc _).1 N hN, (C109_counts_partial corpus hc (h ++ [c])).1 N
    (fun d hd => hN d (List.mem_append_left _ hd))]
  apply sumBy_congr
  intro n _
  unfold contribOf
  rw [lastVals_snoc (h ++ [c]), lastVals_snoc h]
  by_cases hn : c.lo ≤ n ∧ n ≤ c.hi
  · simp only [if_pos hn]
  · simp only [if_neg hn]

/-- C109: batch training of a range leaves in the tables exactly the expected values of that range, whatever the model
contained. -/
theorem C109_batch (corpus : Nat → Option (Sent γ G X)) (hc : CellsOk corpus) (st : Est γ G X) (c : Call γ) :
    Counts corpus [c] (batchTrain corpus st c.lo c.hi c.new).tab ∧ DensOk (batchTrain corpus st c.lo c.hi c.new).tab := by
  unfold batchTrain gatherRange
  dsimp only
  obtain ⟨a1, a2, a3, a4, a5⟩ := gatherList_spec hc (m := (Mem.empty (some 0) : Mem γ)) .zero c.new
    (List.range' c.lo (c.hi + 1 - c.lo)) List.nodup_range' []
  obtain ⟨b1, b2, b3, b4⟩ := updateAll_spec _ (a4 AMap.distinct_nil) (tabOk_empty (G := G) (X := X))
  refine ⟨?_, b1.den⟩
  intro N hN key
  have := b2 key
  unfold numAt at this
  rw [this, a3]
  have hz : sumBy (oldC corpus (Mem.empty (some 0) : Mem γ) key) (List.range' c.lo (c.hi + 1 - c.lo)) = 0 := by
    apply sumBy_zero
    intro n _
    unfold oldC
    cases corpus n with
    | none => rfl
    | some snt =>
      dsimp only
      apply sumBy_zero
      intro d _
      simp [recall, Mem.empty, wcurr]
  rw [hz]
  simp only [auxAt, AMap.lk, Option.getD_none]
  rw [sum_range_restrict _ (hN c List.mem_cons_self)]
  have : sumBy (contribOf corpus [c] key) (List.range N) =
      sumBy (fun n => if c.lo ≤ n ∧ n ≤ c.hi then newC corpus c.new key n else 0) (List.range N) := by
    apply sumBy_congr
    intro n _
    unfold contribOf newC
    rw [show lastVals [c] n = if c.lo ≤ n ∧ n ≤ c.hi then some (c.new n) else none from rfl]
    by_cases hn : c.lo ≤ n ∧ n ≤ c.hi
    · rw [if_pos hn, if_pos hn]; cases corpus n <;> rfl
    · rw [if_neg hn, if_neg hn]; cases corpus n <;> rfl
  rw [this]; grind

/-! The cells of the lexical and alignment parameters satisfy the hypothesis of C109. -/

theorem nodup_flatMap {A B : Type} (f : A → List B) (l : List A) (hl : l.Nodup) (h1 : ∀ a ∈ l, (f a).Nodup)
    (h2 : ∀ a ∈ l, ∀ a' ∈ l, ∀ b, b ∈ f a → b ∈ f a' → a = a') : (l.flatMap f).Nodup := by
  induction l with
  | nil => exact List.nodup_nil
  | cons a l ih =>
    rw [List.flatMap_cons, List.nodup_append]
    obtain ⟨hn1, hn2⟩ := List.nodup_cons.1 hl
    refine ⟨h1 a List.mem_cons_self, ih hn2 (fun x hx => h1 x (List.mem_cons_of_mem _ hx))
      (fun x hx y hy => h2 x (List.mem_cons_of_mem _ hx) y (List.mem_cons_of_mem _ hy)), ?_⟩
    intro b hb b' hb' he
    subst he
    obtain ⟨y, hy, hby⟩ := List.mem_flatMap.1 hb'
    have := h2 a List.mem_cons_self y (List.mem_cons_of_mem _ hy) b hb hby
    exact hn1 (this ▸ hy)

theorem nodup_map_inj {A B : Type} (f : A → B) (l : List A) (hl : l.Nodup) (h : ∀ a b, f a = f b → a = b) :
    (l.map f).Nodup := by
  induction l with
  | nil => exact List.nodup_nil
  | cons a l ih =>
    obtain ⟨hn1, hn2⟩ := List.nodup_cons.1 hl
    rw [List.map_cons, List.nodup_cons]
    refine ⟨fun hm => ?_, ih hn2⟩
    obtain ⟨b, hb, he⟩ := List.mem_map.1 hm
    exact hn1 (h b a he ▸ hb)

theorem lexCells_nodup (nsrc trg : List Nat) : ((lexCells nsrc trg).map Prod.fst).Nodup := by
  unfold lexCells
  rw [List.map_flatMap]
  apply nodup_flatMap _ _ List.nodup_range'
  · intro j _
    rw [List.map_map]
    exact nodup_map_inj _ _ List.nodup_range' (fun a b h => (Prod.mk.inj h).2)
  · intro j _ j' _ b hb hb'
    rw [List.map_map, List.mem_map] at hb hb'
    obtain ⟨_, _, rfl⟩ := hb
    obtain ⟨_, _, h⟩ := hb'
    exact (Prod.mk.inj h).1.symm

theorem aligCells_nodup (slen n J : Nat) : ((aligCells slen n J).map Prod.fst).Nodup := by
  unfold aligCells
  rw [List.map_flatMap]
  apply nodup_flatMap _ _ List.nodup_range'
  · intro j _
    rw [List.map_flatMap]
    apply nodup_flatMap _ _ List.nodup_range'
    · intro i _
      by_cases hj : j = 1
      · rw [if_pos hj]; exact List.nodup_cons.2 ⟨List.not_mem_nil, List.nodup_nil⟩
      · rw [if_neg hj, List.map_map]
        exact nodup_map_inj _ _ (List.Pairwise.filter _ List.nodup_range') (fun a b h => (Prod.mk.inj (Prod.mk.inj h).2).2)
    · intro i _ i' _ b hb hb'
      by_cases hj : j = 1
      · rw [if_pos hj] at hb hb'
        simp only [List.map_cons, List.map_nil, List.mem_cons, List.not_mem_nil, or_false] at hb hb'
        subst hb
        exact (Prod.mk.inj (Prod.mk.inj hb').2).1
      · rw [if_neg hj, List.map_map, List.mem_map] at hb hb'
        obtain ⟨_, _, rfl⟩ := hb
        obtain ⟨_, _, h⟩ := hb'
        exact (Prod.mk.inj (Prod.mk.inj h).2).1.symm
  · intro j _ j' _ b hb hb'
    rw [List.map_flatMap, List.mem_flatMap] at hb hb'
    obtain ⟨i, _, hb⟩ := hb
    obtain ⟨i', _, hb'⟩ := hb'
    have key : ∀ (j i : Nat) (b : Nat × Nat × Nat), b ∈ List.map Prod.fst (if j = 1 then [((j, i, 0), ((0, slen), i))]
        else ((List.range' 1 n).filter fun ip => isValidAlig ip slen i).map fun ip => ((j, i, ip), ((ip, slen), i))) →
        b.1 = j := by
      intro j i b hb
      by_cases hj : j = 1
      · rw [if_pos hj] at hb
        simp only [List.map_cons, List.map_nil, List.mem_cons, List.not_mem_nil, or_false] at hb
        rw [hb]
      · rw [if_neg hj, List.map_map, List.mem_map] at hb
        obtain ⟨_, _, rfl⟩ := hb
        rfl
    exact (key j i b hb).symm.trans (key j' i' b hb')

/-- C109 for the lexical parameters of a corpus of sentence pairs (source sentence extended with null words, target
sentence, weight). -/
theorem C109_lex (pairs : Nat → Option (List Nat × List Nat × Rat)) (h : List (Call (Nat × Nat))) :
    let corpus : Nat → Option (Sent (Nat × Nat) Nat Nat) :=
      fun n => (pairs n).map fun p => ⟨lexCells p.1 p.2.1, p.2.2⟩
    Counts corpus h (runCalls corpus none h).tab ∧ DensOk (runCalls corpus none h).tab := by
  intro corpus
  have hc : CellsOk corpus := by
    intro n snt hs
    obtain ⟨p, _, rfl⟩ := Option.map_eq_some_iff.1 hs
    exact lexCells_nodup _ _
  exact ⟨(C109_counts_partial corpus hc h).1, (C109_counts_partial corpus hc h).2.1⟩

/-- C109 for the alignment parameters of a corpus of sentence pairs (source length, number of states, target length,
weight). -/
theorem C109_alig (pairs : Nat → Option (Nat × Nat × Nat × Rat)) (h : List (Call (Nat × Nat × Nat))) :
    let corpus : Nat → Option (Sent (Nat × Nat × Nat) (Nat × Nat) Nat) :=
      fun n => (pairs n).map fun p => ⟨aligCells p.1 p.2.1 p.2.2.1, p.2.2.2⟩
    Counts corpus h (runCalls corpus none h).tab ∧ DensOk (runCalls corpus none h).tab := by
  intro corpus
  have hc : CellsOk corpus := by
    intro n snt hs
    obtain ⟨p, _, rfl⟩ := Option.map_eq_some_iff.1 hs
    exact aligCells_nodup _ _ _
  exact ⟨(C109_counts_partial corpus hc h).1, (C109_counts_partial corpus hc h).2.1⟩

/-! ### The full property is false: a bounded memory forgets, and counts again -/

/-- Two sentence pairs with one cell each, contributing to the same parameter. -/
def corpusEx (n : Nat) : Option (Sent (Nat × Nat) Nat Nat) :=
  if n = 0 ∨ n = 1 then some ⟨[((1, 1), (7, 8))], 1⟩ else none

def callEx : Call (Nat × Nat) := { lo := 0, hi := 1, new := fun _ _ => 1 }

theorem corpusEx_ok : CellsOk corpusEx := by
  intro n snt hs
  unfold corpusEx at hs
  split at hs
  · cases hs; exact List.nodup_cons.2 ⟨List.not_mem_nil, List.nodup_nil⟩
  · cases hs

theorem C109_counterexample : ¬ C109_full := by
  intro hf
  have h := (hf corpusEx (some 1) [callEx, callEx] corpusEx_ok).1 2
    (by intro c hc; rcases List.mem_cons.1 hc with rfl | hc
        · decide
        · rcases List.mem_cons.1 hc with rfl | hc
          · decide
          · cases hc) (7, 8)
  revert h
  decide +kernel

/-! ### Non-vacuity: with unrestricted memory the same history gives the expected count 2, three calls over overlapping
ranges too -/

example : (AMap.lk (runCalls corpusEx none [callEx, callEx]).tab.num (7, 8)).getD 0 = 2 := by decide +kernel
example : (AMap.lk (runCalls corpusEx (some 1) [callEx, callEx]).tab.num (7, 8)).getD 0 = 4 := by decide +kernel
example : (AMap.lk (runCalls corpusEx none [callEx, { lo := 1, hi := 5, new := fun _ _ => 1 / 3 }]).tab.num (7, 8)).getD 0
    = 4 / 3 := by decide +kernel
example : (lexCells [1, 2, 0, 0] [5, 6]).length = 8 := by decide +kernel
example : (aligCells 2 4 3).length = 4 + 2 * 12 := by decide +kernel

end Thot.Hmm
