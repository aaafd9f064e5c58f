import Verif.Preproc.TmModel
/-!
C251, C252: the counts of the translation model; printing and loading.
-/
namespace Thot.Preproc

open Thot
open Thot.Sum (sumBy)
open Thot.SentHandler (joinWords Word fields_join)
open Thot.Awk (fields)
open Thot.Vocab (showNat)
open Thot.AMap (lk put Distinct)
open Thot.PhrTools (join_append join_inj)

/-! ### Specification -/

/-- The sum of the increments of a pair. -/
def pairSum (h : List (Str × Str × Nat)) (s t : Str) : Nat := ((h.filter fun e => decide (e.1 = s ∧ e.2.1 = t)).map fun e => e.2.2).sum

/-- The sum of the increments of a source. -/
def srcSum (h : List (Str × Str × Nat)) (s : Str) : Nat := ((h.filter fun e => decide (e.1 = s)).map fun e => e.2.2).sum

/-! ### The dictionaries -/

theorem count_increase (m : TM) (s t : Str) (c : Nat) (s' t' : Str) : (m.increase s t c).count s' t' =
    if s' = s ∧ t' = t then (if lk m.st s = none then c else if t ∈ m.opts s then m.count s t + c else 1) else m.count s' t' := by
  unfold TM.increase TM.count TM.opts
  cases h1 : lk m.st s with
  | none =>
    simp only [AMap.lk_put, if_true]
    by_cases e : s' = s
    · subst e
      rw [if_pos rfl, h1]
      by_cases e2 : t' = t
      · subst e2; simp [lk]
      · have : ¬ t = t' := fun h => e2 h.symm
        simp [lk, e2, this]
    · rw [if_neg e, if_neg (fun h => e h.1)]
  | some os =>
    simp only
    have hmem : t ∈ os.map Prod.fst ↔ lk os t ≠ none := by
      rw [Ne, AMap.lk_none_iff]
      exact ⟨fun h hn => hn h, fun h => Classical.byContradiction h⟩
    cases h2 : lk os t with
    | none =>
      simp only [AMap.lk_put]
      by_cases e : s' = s
      · subst e
        rw [if_pos rfl, h1]
        simp only [AMap.lk_put]
        by_cases e2 : t' = t
        · subst e2
          have hm : ¬ t' ∈ os.map Prod.fst := fun h => hmem.1 h h2
          rw [if_pos rfl, if_pos ⟨trivial, rfl⟩, if_neg (by simp), if_neg hm]; rfl
        · rw [if_neg e2, if_neg (fun h => e2 h.2)]
      · rw [if_neg e, if_neg (fun h => e h.1)]
    | some k =>
      simp only [AMap.lk_put]
      by_cases e : s' = s
      · subst e
        rw [if_pos rfl, h1]
        simp only [AMap.lk_put]
        by_cases e2 : t' = t
        · subst e2
          have hm : t' ∈ os.map Prod.fst := hmem.2 (by rw [h2]; simp)
          rw [if_pos rfl, if_pos ⟨trivial, rfl⟩, if_neg (by simp), if_pos hm]; rfl
        · rw [if_neg e2, if_neg (fun h => e2 h.2)]
      · rw [if_neg e, if_neg (fun h => e h.1)]

theorem opts_increase (m : TM) (s t : Str) (c : Nat) (s' : Str) : (m.increase s t c).opts s' =
    if s' = s ∧ t ∉ m.opts s then m.opts s' ++ [t] else m.opts s' := by
  unfold TM.increase TM.opts
  cases h1 : lk m.st s with
  | none =>
    simp only [AMap.lk_put]
    by_cases e : s' = s
    · subst e; rw [if_pos rfl, h1]; simp
    · rw [if_neg e, if_neg (fun h => e h.1)]
  | some os =>
    simp only
    cases h2 : lk os t with
    | none =>
      simp only [AMap.lk_put]
      have hm := AMap.lk_none_iff.1 h2
      by_cases e : s' = s
      · subst e; rw [if_pos rfl, h1, if_pos ⟨rfl, hm⟩, AMap.put_of_none _ h2]; simp
      · rw [if_neg e, if_neg (fun h => e h.1)]
    | some k =>
      simp only [AMap.lk_put]
      have hm : t ∈ os.map Prod.fst := by
        apply Classical.byContradiction
        intro hn; rw [AMap.lk_none_iff.2 hn] at h2; cases h2
      by_cases e : s' = s
      · subst e; rw [if_pos rfl, h1, if_neg (fun h => h.2 hm)]; exact AMap.keys_put_of_some _ h2
      · rw [if_neg e, if_neg (fun h => e h.1)]

theorem src_increase (m : TM) (hm : ∀ s, lk m.st s = none → lk m.s s = none) (s t : Str) (c : Nat) (s' : Str) : (m.increase s t c).srcCount s' =
    if s' = s then m.srcCount s + c else m.srcCount s' := by
  unfold TM.increase TM.srcCount
  cases h1 : lk m.st s with
  | none =>
    simp only [AMap.lk_put]
    by_cases e : s' = s
    · subst e; rw [if_pos rfl, if_pos rfl, hm _ h1]; simp
    · rw [if_neg e, if_neg e]
  | some os =>
    simp only
    cases h2 : lk os t with
    | none =>
      simp only [AMap.lk_put]
      by_cases e : s' = s
      · subst e; rw [if_pos rfl, if_pos rfl]; rfl
      · rw [if_neg e, if_neg e]
    | some k =>
      simp only [AMap.lk_put]
      by_cases e : s' = s
      · subst e; rw [if_pos rfl, if_pos rfl]; rfl
      · rw [if_neg e, if_neg e]

/-- The invariant of the dictionaries. -/
structure TmInv (m : TM) : Prop where
  dst : Distinct m.st
  dopt : ∀ e ∈ m.st, Distinct e.2 ∧ e.2 ≠ []
  keys : ∀ s, lk m.st s = none → lk m.s s = none

theorem mem_put {K V : Type} [DecidableEq K] {m : List (K × V)} {k : K} {v : V} {e : K × V} (he : e ∈ put m k v) : e = (k, v) ∨ e ∈ m := by
  induction m with
  | nil => simp [put] at he; exact Or.inl he
  | cons a m ih =>
    unfold put at he
    split at he
    · rcases List.mem_cons.1 he with h | h
      · exact Or.inl h
      · exact Or.inr (List.mem_cons_of_mem _ h)
    · rcases List.mem_cons.1 he with h | h
      · exact Or.inr (by rw [h]; exact List.mem_cons_self)
      · rcases ih h with h | h
        · exact Or.inl h
        · exact Or.inr (List.mem_cons_of_mem _ h)

theorem put_ne_nil {K V : Type} [DecidableEq K] (m : List (K × V)) (k : K) (v : V) : put m k v ≠ [] := by
  cases m with
  | nil => simp [put]
  | cons a m => unfold put; split <;> simp

theorem inv_increase {m : TM} (h : TmInv m) (s t : Str) (c : Nat) : TmInv (m.increase s t c) := by
  unfold TM.increase
  cases h1 : lk m.st s with
  | none =>
    simp only
    refine ⟨AMap.distinct_put h.dst _ _, ?_, ?_⟩
    · intro e he
      rcases mem_put he with rfl | he
      · exact ⟨by simp [Distinct], by simp⟩
      · exact h.dopt e he
    · intro s' hs'
      simp only [AMap.lk_put] at hs' ⊢
      by_cases e : s' = s
      · rw [if_pos e] at hs'; cases hs'
      · rw [if_neg e] at hs' ⊢; exact h.keys s' hs'
  | some os =>
    have hos := h.dopt (s, os) ((AMap.lk_some_iff h.dst).1 h1)
    simp only
    cases h2 : lk os t with
    | none =>
      simp only
      refine ⟨AMap.distinct_put h.dst _ _, ?_, ?_⟩
      · intro e he
        rcases mem_put he with rfl | he
        · exact ⟨AMap.distinct_put hos.1 _ _, put_ne_nil _ _ _⟩
        · exact h.dopt e he
      · intro s' hs'
        simp only [AMap.lk_put] at hs' ⊢
        by_cases e : s' = s
        · rw [if_pos e] at hs'; cases hs'
        · rw [if_neg e] at hs' ⊢; exact h.keys s' hs'
    | some k =>
      simp only
      refine ⟨AMap.distinct_put h.dst _ _, ?_, ?_⟩
      · intro e he
        rcases mem_put he with rfl | he
        · exact ⟨AMap.distinct_put hos.1 _ _, put_ne_nil _ _ _⟩
        · exact h.dopt e he
      · intro s' hs'
        simp only [AMap.lk_put] at hs' ⊢
        by_cases e : s' = s
        · rw [if_pos e] at hs'; cases hs'
        · rw [if_neg e] at hs' ⊢; exact h.keys s' hs'

theorem inv_empty : TmInv TM.empty := ⟨AMap.distinct_nil, by simp [TM.empty], fun _ _ => rfl⟩

theorem inv_run (h : List (Str × Str × Nat)) : ∀ m : TM, TmInv m → TmInv (m.run h) := by
  induction h with
  | nil => intro m hm; exact hm
  | cons e h ih => intro m hm; exact ih _ (inv_increase hm _ _ _)

theorem opts_none {m : TM} (hm : TmInv m) (s : Str) : lk m.st s = none ↔ m.opts s = [] := by
  unfold TM.opts
  cases h : lk m.st s with
  | none => simp
  | some os =>
    have := (hm.dopt (s, os) ((AMap.lk_some_iff hm.dst).1 h)).2
    simp [this]

theorem opts_nodup {m : TM} (hm : TmInv m) (s : Str) : (m.opts s).Nodup := by
  unfold TM.opts
  cases h : lk m.st s with
  | none => exact List.nodup_nil
  | some os => exact (hm.dopt (s, os) ((AMap.lk_some_iff hm.dst).1 h)).1

/-! ### Histories -/

theorem run_snoc (m : TM) (h : List (Str × Str × Nat)) (e : Str × Str × Nat) : m.run (h ++ [e]) = (m.run h).increase e.1 e.2.1 e.2.2 := by
  unfold TM.run; rw [List.foldl_append]; rfl

theorem pairSum_snoc (h : List (Str × Str × Nat)) (e : Str × Str × Nat) (s t : Str) :
    pairSum (h ++ [e]) s t = if e.1 = s ∧ e.2.1 = t then pairSum h s t + e.2.2 else pairSum h s t := by
  unfold pairSum
  rw [List.filter_append]
  by_cases he : e.1 = s ∧ e.2.1 = t
  · rw [List.filter_cons_of_pos (by simpa using he), if_pos he]; simp
  · rw [List.filter_cons_of_neg (by simpa using he), if_neg he]; simp

theorem srcSum_snoc (h : List (Str × Str × Nat)) (e : Str × Str × Nat) (s : Str) :
    srcSum (h ++ [e]) s = if e.1 = s then srcSum h s + e.2.2 else srcSum h s := by
  unfold srcSum
  rw [List.filter_append]
  by_cases he : e.1 = s
  · rw [List.filter_cons_of_pos (by simpa using he), if_pos he]; simp
  · rw [List.filter_cons_of_neg (by simpa using he), if_neg he]; simp

theorem snoc_ind {α : Type} {P : List α → Prop} (h0 : P []) (h1 : ∀ l a, P l → P (l ++ [a])) : ∀ l, P l := by
  intro l
  induction hn : l.length generalizing l with
  | zero => rw [List.length_eq_zero_iff.1 hn]; exact h0
  | succ m ih =>
    rcases List.eq_nil_or_concat l with rfl | ⟨l', a, rfl⟩
    · cases hn
    · rw [List.concat_eq_append] at hn ⊢
      exact h1 _ _ (ih l' (by simp at hn; exact hn))

theorem mem_opts_run (h : List (Str × Str × Nat)) (s t : Str) : t ∈ (TM.empty.run h).opts s ↔ ∃ c, (s, t, c) ∈ h := by
  induction h using snoc_ind with
  | h0 => simp [TM.run, TM.opts, TM.empty, lk]
  | h1 h e ih =>
    rw [run_snoc, opts_increase]
    simp only [List.mem_append, List.mem_singleton, exists_or]
    by_cases hc : s = e.1 ∧ e.2.1 ∉ (TM.empty.run h).opts e.1
    · rw [if_pos hc, List.mem_append, List.mem_singleton, ih]
      constructor
      · rintro (h | rfl)
        · exact Or.inl h
        · exact Or.inr ⟨e.2.2, by rw [hc.1]⟩
      · rintro (h | ⟨c, rfl⟩)
        · exact Or.inl h
        · exact Or.inr rfl
    · rw [if_neg hc, ih]
      constructor
      · exact Or.inl
      · rintro (h | ⟨c, rfl⟩)
        · exact h
        · simp only at hc
          have : t ∈ (TM.empty.run h).opts s := Classical.byContradiction fun hn => hc ⟨trivial, hn⟩
          exact ih.1 this

theorem src_run (h : List (Str × Str × Nat)) (s : Str) : (TM.empty.run h).srcCount s = srcSum h s := by
  induction h using snoc_ind with
  | h0 => rfl
  | h1 h e ih =>
    rw [run_snoc, src_increase _ (inv_run h _ inv_empty).keys, srcSum_snoc]
    by_cases he : s = e.1
    · subst he; rw [if_pos rfl, if_pos rfl, ih]
    · rw [if_neg he, if_neg (fun h => he h.symm), ih]

/-- With increments of one the counts are exact. -/
theorem count_run (h : List (Str × Str × Nat)) (h1 : ∀ e ∈ h, e.2.2 = 1) (s t : Str) : (TM.empty.run h).count s t = pairSum h s t := by
  induction h using snoc_ind with
  | h0 => rfl
  | h1 h e ih =>
    have he1 := h1 e (by simp)
    have ih := ih fun x hx => h1 x (by simp [hx])
    rw [run_snoc, count_increase, pairSum_snoc]
    by_cases hc : s = e.1 ∧ t = e.2.1
    · obtain ⟨rfl, rfl⟩ := hc
      rw [if_pos (show e.1 = e.1 ∧ e.2.1 = e.2.1 from ⟨rfl, rfl⟩), if_pos (show e.1 = e.1 ∧ e.2.1 = e.2.1 from ⟨rfl, rfl⟩), ← ih, he1]
      by_cases hn : lk (TM.empty.run h).st e.1 = none
      · rw [if_pos hn]
        have : (TM.empty.run h).count e.1 e.2.1 = 0 := by unfold TM.count; rw [hn]
        omega
      · rw [if_neg hn]
        by_cases hm : e.2.1 ∈ (TM.empty.run h).opts e.1
        · rw [if_pos hm]
        · rw [if_neg hm]
          have : (TM.empty.run h).count e.1 e.2.1 = 0 := by
            unfold TM.count
            unfold TM.opts at hm
            cases h3 : lk (TM.empty.run h).st e.1 with
            | none => rfl
            | some os =>
              rw [h3] at hm
              simp only
              rw [AMap.lk_none_iff.2 hm]; rfl
          omega
    · rw [if_neg hc, if_neg (fun h => hc ⟨h.1.symm, h.2.symm⟩), ih]

theorem sum_add {α : Type} (f g : α → Nat) (l : List α) : (l.map fun a => f a + g a).sum = (l.map f).sum + (l.map g).sum := by
  induction l with
  | nil => rfl
  | cons a l ih => simp only [List.map_cons, List.sum_cons, ih]; omega

theorem sum_single {l : List Str} (hn : l.Nodup) {a : Str} (ha : a ∈ l) (c : Nat) : (l.map fun x => if x = a then c else 0).sum = c := by
  induction l with
  | nil => cases ha
  | cons b l ih =>
    obtain ⟨h1, h2⟩ := List.nodup_cons.1 hn
    rw [List.map_cons, List.sum_cons]
    by_cases e : b = a
    · subst e
      rw [if_pos rfl]
      have : (l.map fun x => if x = b then c else 0).sum = 0 := by
        clear ih hn h2 ha
        induction l with
        | nil => rfl
        | cons x l ih =>
          rw [List.map_cons, List.sum_cons, if_neg (fun e => h1 (by rw [e]; exact List.mem_cons_self)), ih fun h => h1 (List.mem_cons_of_mem _ h)]
      omega
    · rw [if_neg e, ih h2 ((List.mem_cons.1 ha).resolve_left fun h => e h.symm)]; omega

/-- The increments of a source are those of its pairs. -/
theorem srcSum_pairs (h : List (Str × Str × Nat)) (s : Str) (l : List Str) (hn : l.Nodup) (hl : ∀ t c, (s, t, c) ∈ h → t ∈ l) :
    (l.map (pairSum h s)).sum = srcSum h s := by
  induction h using snoc_ind with
  | h0 =>
    have : ∀ l : List Str, (l.map (pairSum [] s)).sum = 0 := by
      intro l; induction l with
      | nil => rfl
      | cons a l ih => rw [List.map_cons, List.sum_cons, ih]; rfl
    exact this l
  | h1 h e ih =>
    rw [srcSum_snoc]
    have ih := ih fun t c hm => hl t c (by simp [hm])
    by_cases he : e.1 = s
    · rw [if_pos he, ← ih]
      have : (fun t => pairSum (h ++ [e]) s t) = fun t => pairSum h s t + if t = e.2.1 then e.2.2 else 0 := by
        funext t
        rw [pairSum_snoc]
        by_cases ht : t = e.2.1
        · rw [if_pos ⟨he, ht.symm⟩, if_pos ht]
        · rw [if_neg (fun h => ht h.2.symm), if_neg ht]; rfl
      show (l.map fun t => pairSum (h ++ [e]) s t).sum = _
      rw [this, sum_add, sum_single hn (hl e.2.1 e.2.2 (by simp [← he]))]
    · rw [if_neg he, ← ih]
      congr 1
      apply List.map_congr_left
      intro t _
      rw [pairSum_snoc, if_neg (fun h => he h.1)]

theorem cast_sum {α : Type} (f : α → Nat) (l : List α) : sumBy (fun a => (f a : Rat)) l = ((l.map f).sum : Nat) := by
  induction l with
  | nil => rfl
  | cons a l ih => rw [Sum.sumBy_cons, ih, List.map_cons, List.sum_cons]; exact (Rat.natCast_add _ _).symm

/-- The full claim: the counts are the sums of the increments. -/
def C251_full : Prop := ∀ (h : List (Str × Str × Nat)) (s t : Str),
  (TM.empty.run h).srcCount s = srcSum h s ∧ (TM.empty.run h).count s t = pairSum h s t

/-- A second target whose first increment is 2 gets 1. -/
theorem C251_counterexample : ¬ C251_full := by
  intro h
  have := (h [(['a'], ['a'], 1), (['a'], ['A'], 2)] ['a'] ['A']).2
  revert this
  decide +kernel

/-- The counts of the translation model: those of the sources are always exact and the options are the targets seen, once each. When every
increment is one (training), the counts of the pairs are exact and the probabilities of the options of a source add up to one (smoothed: to
the mass that is not reserved). Missing: the first increment of a new target of a known source is taken as one (`C251_counterexample`). -/
theorem C251_counts_partial (h : List (Str × Str × Nat)) (s : Str) :
    (TM.empty.run h).srcCount s = srcSum h s ∧
    ((TM.empty.run h).opts s).Nodup ∧ (∀ t, t ∈ (TM.empty.run h).opts s ↔ ∃ c, (s, t, c) ∈ h) ∧
    ((∀ e ∈ h, e.2.2 = 1) →
      (∀ t, (TM.empty.run h).count s t = pairSum h s t) ∧
      ((∃ t c, (s, t, c) ∈ h) → sumBy ((TM.empty.run h).prob s) ((TM.empty.run h).opts s) = 1 ∧
        sumBy ((TM.empty.run h).probSmoothed s) ((TM.empty.run h).opts s) = 1 - 1 / 1000000)) := by
  have hn := opts_nodup (inv_run h _ inv_empty) s
  refine ⟨src_run h s, hn, mem_opts_run h s, fun h1 => ⟨count_run h h1 s, ?_⟩⟩
  rintro ⟨t, c, ht⟩
  have hpos : 0 < srcSum h s := by
    have := h1 _ ht
    simp only at this
    subst this
    unfold srcSum
    have hm : (s, t, 1) ∈ h.filter fun e => decide (e.1 = s) := List.mem_filter.2 ⟨ht, by simp⟩
    have : ∀ l : List (Str × Str × Nat), (s, t, 1) ∈ l → 0 < (l.map fun e => e.2.2).sum := by
      intro l hl
      induction l with
      | nil => cases hl
      | cons a l ih =>
        rw [List.map_cons, List.sum_cons]
        rcases List.mem_cons.1 hl with rfl | hl
        · simp only; omega
        · have := ih hl; omega
    exact this _ hm
  have hsc := src_run h s
  have hsum : sumBy (fun t => ((TM.empty.run h).count s t : Rat)) ((TM.empty.run h).opts s) = (srcSum h s : Rat) := by
    rw [cast_sum]
    congr 1
    rw [← srcSum_pairs h s _ hn fun t c hm => (mem_opts_run h s t).2 ⟨c, hm⟩]
    congr 1
    exact List.map_congr_left fun t _ => count_run h h1 s t
  have hne : ((srcSum h s : Nat) : Rat) ≠ 0 := by
    intro hc
    have : srcSum h s = 0 := by exact_mod_cast hc
    omega
  have hp : sumBy ((TM.empty.run h).prob s) ((TM.empty.run h).opts s) = 1 := by
    have : sumBy ((TM.empty.run h).prob s) ((TM.empty.run h).opts s) =
        sumBy (fun t => ((TM.empty.run h).count s t : Rat) * (srcSum h s : Rat)⁻¹) ((TM.empty.run h).opts s) := by
      apply Sum.sumBy_congr
      intro t _
      unfold TM.prob
      rw [hsc, if_neg (by omega), Rat.div_def]
    rw [this, Sum.sumBy_mul_right, hsum, Rat.mul_inv_cancel _ hne]
  refine ⟨hp, ?_⟩
  have : sumBy ((TM.empty.run h).probSmoothed s) ((TM.empty.run h).opts s) =
      sumBy (fun t => (1 - 1 / 1000000) * (TM.empty.run h).prob s t) ((TM.empty.run h).opts s) := by
    apply Sum.sumBy_congr
    intro t _
    unfold TM.probSmoothed TM.prob
    rw [hsc, if_neg (by omega), if_neg (by omega)]
  rw [this, Sum.sumBy_mul, hp, Rat.mul_one]

end Thot.Preproc
