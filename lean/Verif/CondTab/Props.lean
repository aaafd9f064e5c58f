import Verif.CondTab.Lemmas
/-!
# C299–C303: the conditional probability table
-/
namespace Thot.CondTab

open Thot Thot.AMap Thot.Sum

variable {S T : Type} [DecidableEq S] [DecidableEq T]

/-! ### Histories -/

/-- An operation that changes the table. -/
inductive Op (S T : Type) where
  | src (s : S) (c : Nat)
  | srcTrg (s : S) (t : T) (c : Nat)
  | entry (s : S) (t : T) (cs cst : Nat)
  | incr (s : S) (t : T) (c : Nat)
  | clear

/-- One operation. -/
def step (m : Tab S T) : Op S T → Tab S T
  | .src s c => addSrcInfo m s c
  | .srcTrg s t c => addSrcTrgInfo m s t c
  | .entry s t cs cst => addTableEntry m s t cs cst
  | .incr s t c => incrCountsOfEntry m s t c
  | .clear => m.clear

/-- A history, on a new table. -/
def run (ops : List (Op S T)) : Tab S T := ops.foldl step Tab.new

/-- The count of each source: the last value set, plus the increments since. -/
def idealSrc (f : S → Option Nat) : Op S T → (S → Option Nat)
  | .src s c => fun s' => if s' = s then some c else f s'
  | .srcTrg _ _ _ => f
  | .entry s _ cs _ => fun s' => if s' = s then some cs else f s'
  | .incr s _ c => fun s' => if s' = s then some ((f s).getD 0 + c) else f s'
  | .clear => fun _ => none

/-- The count of each pair. -/
def idealPair (f : S → T → Option Nat) : Op S T → (S → T → Option Nat)
  | .src _ _ => f
  | .srcTrg s t c => fun s' t' => if s' = s ∧ t' = t then some c else f s' t'
  | .entry s t _ cst => fun s' t' => if s' = s ∧ t' = t then some cst else f s' t'
  | .incr s t c => fun s' t' => if s' = s ∧ t' = t then some ((f s t).getD 0 + c) else f s' t'
  | .clear => fun _ _ => none

/-- The counts of the sources after a history. -/
def specSrc (ops : List (Op S T)) : S → Option Nat := ops.foldl idealSrc (fun _ => none)

/-- The counts of the pairs after a history. -/
def specPair (ops : List (Op S T)) : S → T → Option Nat := ops.foldl idealPair (fun _ _ => none)

/-! ### C299: contents of the table -/

theorem step_src (m : Tab S T) (o : Op S T) : getSrcInfo (step m o) = idealSrc (getSrcInfo m) o := by
  funext s'
  cases o with
  | src s c => exact getSrcInfo_addSrcInfo m s c s'
  | srcTrg s t c => exact getSrcInfo_addSrcTrgInfo m s t c s'
  | entry s t cs cst =>
    simp only [step, addTableEntry, getSrcInfo_addSrcTrgInfo, getSrcInfo_addSrcInfo, idealSrc]
  | incr s t c => exact getSrcInfo_incr m s t c s'
  | clear => rfl

theorem step_pair (m : Tab S T) (o : Op S T) : getSrcTrgInfo (step m o) = idealPair (getSrcTrgInfo m) o := by
  funext s' t'
  cases o with
  | src s c => rfl
  | srcTrg s t c => exact getSrcTrgInfo_addSrcTrgInfo m s t c s' t'
  | entry s t cs cst =>
    simp only [step, addTableEntry, getSrcTrgInfo_addSrcTrgInfo, getSrcTrgInfo_addSrcInfo, idealPair]
  | incr s t c => exact getSrcTrgInfo_incr m s t c s' t'
  | clear => rfl

/-- C299: after any history, `getSrcInfo` and `getSrcTrgInfo` return the last value set plus the increments since,
and report as not found exactly what has none. -/
theorem C299_contents (ops : List (Op S T)) :
    (∀ s, getSrcInfo (run ops) s = specSrc ops s) ∧ ∀ s t, getSrcTrgInfo (run ops) s t = specPair ops s t := by
  have key : ∀ (m : Tab S T), getSrcInfo (ops.foldl step m) = ops.foldl idealSrc (getSrcInfo m) ∧
      getSrcTrgInfo (ops.foldl step m) = ops.foldl idealPair (getSrcTrgInfo m) := by
    induction ops with
    | nil => intro m; exact ⟨rfl, rfl⟩
    | cons o r ih =>
      intro m
      simp only [List.foldl_cons]
      rw [(ih (step m o)).1, (ih (step m o)).2, step_src, step_pair]
      exact ⟨rfl, rfl⟩
  obtain ⟨h1, h2⟩ := key Tab.new
  exact ⟨fun s => congrFun h1 s, fun s t => congrFun (congrFun h2 s) t⟩

theorem run_wf (ops : List (Op S T)) : Wf (run ops) := by
  have : ∀ m : Tab S T, Wf m → Wf (ops.foldl step m) := by
    induction ops with
    | nil => intro m h; exact h
    | cons o r ih =>
      intro m h
      refine ih _ ?_
      cases o with
      | src s c => exact wf_addSrcInfo h s c
      | srcTrg s t c => exact wf_addSrcTrgInfo h s t c
      | entry s t cs cst => exact wf_addSrcTrgInfo (wf_addSrcInfo h s cs) s t cst
      | incr s t c => exact wf_incr h s t c
      | clear => exact wf_new
  exact this _ wf_new

/-- Non-vacuity. -/
example : getSrcTrgInfo (run [.entry 1 "a" 5 2, .incr 1 "a" 3, .incr 1 "b" 4]) 1 "a" = some 5 ∧
    getSrcInfo (run [.entry 1 "a" 5 2, .incr 1 "a" 3, .incr 1 "b" 4]) 1 = some 12 ∧
    getSrcTrgInfo (run [.entry 1 "a" 5 2, .incr 1 "a" 3, .incr 1 "b" 4]) 2 "a" = none := by decide +kernel

/-! ### C300: counts and probabilities after increments only -/

/-- The sum of the increments that satisfy `p`. -/
def total (p : S → T → Bool) (cs : List (S × T × Nat)) : Nat := ((cs.filter (fun e => p e.1 e.2.1)).map (·.2.2)).sum

/-- Some increments, on a new table. -/
def counted (cs : List (S × T × Nat)) : Tab S T := run (cs.map (fun e => .incr e.1 e.2.1 e.2.2))

theorem total_cons (p : S → T → Bool) (e : S × T × Nat) (cs : List (S × T × Nat)) :
    total p (e :: cs) = (if p e.1 e.2.1 then e.2.2 else 0) + total p cs := by
  unfold total
  by_cases h : p e.1 e.2.1 <;> simp [List.filter_cons, h]

theorem counted_gen (cs : List (S × T × Nat)) : ∀ (m : Tab S T),
    let m' := (cs.map (fun e => (Op.incr e.1 e.2.1 e.2.2 : Op S T))).foldl step m
    (∀ s, lcSrc m' s = lcSrc m s + total (fun s' _ => decide (s' = s)) cs) ∧
    (∀ t, lcTrg m' t = lcTrg m t + total (fun _ t' => decide (t' = t)) cs) ∧
    (∀ s t, lcSrcTrg m' s t = lcSrcTrg m s t + total (fun s' t' => decide (s' = s ∧ t' = t)) cs) ∧
    (∀ s t, (getSrcTrgInfo m' s t).isSome ↔ (getSrcTrgInfo m s t).isSome ∨ ∃ c, (s, t, c) ∈ cs) ∧
    (∀ s, (getSrcInfo m' s).isSome ↔ (getSrcInfo m s).isSome ∨ ∃ t c, (s, t, c) ∈ cs) := by
  induction cs with
  | nil => intro m; simp [total]
  | cons e r ih =>
    intro m
    obtain ⟨s0, t0, c0⟩ := e
    obtain ⟨h1, h2, h3, h4, h5⟩ := ih (incrCountsOfEntry m s0 t0 c0)
    simp only [List.map_cons, List.foldl_cons, step]
    refine ⟨?_, ?_, ?_, ?_, ?_⟩
    · intro s
      rw [h1 s, total_cons]
      simp only [lcSrc, getSrcInfo_incr, decide_eq_true_eq]
      by_cases h : s = s0
      · subst h; simp; omega
      · simp [h, Ne.symm (show s ≠ s0 from h)]
    · intro t
      rw [h2 t, total_cons, lcTrg_incr]
      simp only [decide_eq_true_eq]
      by_cases h : t = t0
      · subst h; simp; omega
      · simp [h, Ne.symm (show t ≠ t0 from h)]
    · intro s t
      rw [h3 s t, total_cons]
      simp only [lcSrcTrg, getSrcTrgInfo_incr, decide_eq_true_eq]
      by_cases h : s = s0 ∧ t = t0
      · obtain ⟨rfl, rfl⟩ := h; simp; omega
      · have : ¬ (s0 = s ∧ t0 = t) := fun hh => h ⟨hh.1.symm, hh.2.symm⟩
        simp [h, this]
    · intro s t
      rw [h4 s t, getSrcTrgInfo_incr]
      by_cases h : s = s0 ∧ t = t0
      · obtain ⟨rfl, rfl⟩ := h
        simp only [and_self, if_true, Option.isSome_some, true_or, true_iff]
        exact Or.inr ⟨c0, List.mem_cons_self⟩
      · simp only [h, if_false]
        refine or_congr_right (exists_congr fun c => ?_)
        simp only [List.mem_cons, Prod.mk.injEq]
        constructor
        · exact Or.inr
        · rintro (⟨e1, e2, _⟩ | h')
          · exact absurd ⟨e1, e2⟩ h
          · exact h'
    · intro s
      rw [h5 s, getSrcInfo_incr]
      by_cases h : s = s0
      · subst h
        simp only [if_true, Option.isSome_some, true_or, true_iff]
        exact Or.inr ⟨t0, c0, List.mem_cons_self⟩
      · simp only [h, if_false]
        refine or_congr_right (exists_congr fun t => exists_congr fun c => ?_)
        simp only [List.mem_cons, Prod.mk.injEq]
        constructor
        · exact Or.inr
        · rintro (⟨e1, _⟩ | h')
          · exact absurd e1 h
          · exact h'

/-- What the table stores after some increments. -/
theorem counted_spec (cs : List (S × T × Nat)) :
    (∀ s, lcSrc (counted cs) s = total (fun s' _ => decide (s' = s)) cs) ∧
    (∀ t, lcTrg (counted cs) t = total (fun _ t' => decide (t' = t)) cs) ∧
    (∀ s t, lcSrcTrg (counted cs) s t = total (fun s' t' => decide (s' = s ∧ t' = t)) cs) ∧
    (∀ s t, (getSrcTrgInfo (counted cs) s t).isSome ↔ ∃ c, (s, t, c) ∈ cs) ∧
    (∀ s, (getSrcInfo (counted cs) s).isSome ↔ ∃ t c, (s, t, c) ∈ cs) := by
  obtain ⟨h1, h2, h3, h4, h5⟩ := counted_gen cs (Tab.new : Tab S T)
  refine ⟨fun s => ?_, fun t => ?_, fun s t => ?_, fun s t => ?_, fun s => ?_⟩
  · exact (h1 s).trans (Nat.zero_add _)
  · exact (h2 t).trans (Nat.zero_add _)
  · exact (h3 s t).trans (Nat.zero_add _)
  · exact (h4 s t).trans (by simp [getSrcTrgInfo, Tab.new, lk])
  · exact (h5 s).trans (by simp [getSrcInfo, Tab.new, lk])

/-- The direct probability after increments is the quotient of the totals. -/
theorem counted_p (cs : List (S × T × Nat)) (s : S) (t : T) :
    pTrgGivenSrc (counted cs) s t = some ((total (fun s' t' => decide (s' = s ∧ t' = t)) cs : Rat) /
      (total (fun s' _ => decide (s' = s)) cs : Rat)) := by
  obtain ⟨h1, h2, h3, h4, h5⟩ := counted_spec cs
  have e1 := h1 s
  have e3 := h3 s t
  have hle : total (fun s' t' => decide (s' = s ∧ t' = t)) cs ≤ total (fun s' _ => decide (s' = s)) cs := by
    clear h1 h2 h3 h4 h5 e1 e3
    induction cs with
    | nil => simp [total]
    | cons e r ih =>
      rw [total_cons, total_cons]
      simp only [decide_eq_true_eq]
      by_cases h : e.1 = s
      · by_cases h' : e.2.1 = t
        · simp only [h, h', and_self, if_true]; omega
        · simp only [h, h', and_false, if_false, if_true]; omega
      · simp only [h, false_and, if_false]; omega
  unfold pTrgGivenSrc infSrcTrg
  unfold lcSrcTrg getSrcTrgInfo at e3
  cases hl : lk (counted cs).tbl t with
  | none =>
    simp only [hl, Option.getD_none] at e3
    simp only [← e3]
    simp [Rat.div_def]
  | some node =>
    simp only [hl] at e3
    cases hn : lk node s with
    | none =>
      simp only [hn, Option.getD_none] at e3
      simp only [hn, ← e3]
      simp [Rat.div_def]
    | some cst =>
      simp only [hn, Option.getD_some] at e3
      have hsome : (getSrcInfo (counted cs) s).isSome := by
        rw [h5 s]
        have : (getSrcTrgInfo (counted cs) s t).isSome := by simp [getSrcTrgInfo, hl, hn]
        obtain ⟨c, hc⟩ := (h4 s t).1 this
        exact ⟨t, c, hc⟩
      obtain ⟨x, hx⟩ := Option.isSome_iff_exists.1 hsome
      simp only [lcSrc, hx, Option.getD_some] at e1
      simp only [getSrcInfo] at hx
      simp only [hn, hx, e3, e1]
      by_cases h0 : total (fun s' _ => decide (s' = s)) cs = 0
      · simp only [h0, if_true]
        have : total (fun s' t' => decide (s' = s ∧ t' = t)) cs = 0 := by omega
        simp [this, Rat.div_def]
      · simp only [h0, if_false]

theorem sum_total_src (cs : List (S × T × Nat)) (s : S) {ts : List T} (hn : ts.Nodup)
    (hall : ∀ t c, (s, t, c) ∈ cs → t ∈ ts) :
    sumBy (fun t => (total (fun s' t' => decide (s' = s ∧ t' = t)) cs : Rat)) ts =
      (total (fun s' _ => decide (s' = s)) cs : Rat) := by
  induction cs with
  | nil => simp only [total]; exact sumBy_zero (by intro a _; rfl)
  | cons e r ih =>
    obtain ⟨s0, t0, c0⟩ := e
    have ihr := ih (fun t c h => hall t c (List.mem_cons_of_mem _ h))
    simp only [total_cons, decide_eq_true_eq]
    by_cases h : s0 = s
    · subst h
      have hmem := hall t0 c0 List.mem_cons_self
      have : sumBy (fun t => ((((if s0 = s0 ∧ t0 = t then c0 else 0) +
          total (fun s' t' => decide (s' = s0 ∧ t' = t)) r : Nat)) : Rat)) ts =
          sumBy (fun t => (if t = t0 then (c0 : Rat) else 0) +
            (total (fun s' t' => decide (s' = s0 ∧ t' = t)) r : Rat)) ts := by
        refine sumBy_congr fun t _ => ?_
        by_cases ht : t = t0
        · subst ht; simp
        · have : ¬ t0 = t := fun hh => ht hh.symm
          simp [ht, this, Rat.zero_add]
      rw [this, sumBy_add, sumBy_single t0 _ hn, ihr]
      simp [hmem]
    · simp only [h, false_and, if_false, Nat.zero_add]
      exact ihr

theorem sum_total_trg (cs : List (S × T × Nat)) (t : T) {ss : List S} (hn : ss.Nodup)
    (hall : ∀ s c, (s, t, c) ∈ cs → s ∈ ss) :
    sumBy (fun s => (total (fun s' t' => decide (s' = s ∧ t' = t)) cs : Rat)) ss =
      (total (fun _ t' => decide (t' = t)) cs : Rat) := by
  induction cs with
  | nil => simp only [total]; exact sumBy_zero (by intro a _; rfl)
  | cons e r ih =>
    obtain ⟨s0, t0, c0⟩ := e
    have ihr := ih (fun s c h => hall s c (List.mem_cons_of_mem _ h))
    simp only [total_cons, decide_eq_true_eq]
    by_cases h : t0 = t
    · subst h
      have hmem := hall s0 c0 List.mem_cons_self
      have : sumBy (fun s => ((((if s0 = s ∧ t0 = t0 then c0 else 0) +
          total (fun s' t' => decide (s' = s ∧ t' = t0)) r : Nat)) : Rat)) ss =
          sumBy (fun s => (if s = s0 then (c0 : Rat) else 0) +
            (total (fun s' t' => decide (s' = s ∧ t' = t0)) r : Rat)) ss := by
        refine sumBy_congr fun s _ => ?_
        by_cases ht : s = s0
        · subst ht; simp
        · have : ¬ s0 = s := fun hh => ht hh.symm
          simp [ht, this, Rat.zero_add]
      rw [this, sumBy_add, sumBy_single s0 _ hn, ihr]
      simp [hmem]
    · simp only [h, and_false, if_false, Nat.zero_add]
      exact ihr

theorem cast_ne {n : Nat} (h : 0 < n) : (n : Rat) ≠ 0 := by
  intro h0
  have : (n : Rat) = ((0 : Nat) : Rat) := h0
  have := Rat.natCast_inj.1 this
  omega

/-- C300: on a table that has only been incremented, the counts of sources, targets and pairs are the totals of the
increments, `p(t|s)` and `p(s|t)` are the quotients, and over the targets (the sources) seen they sum to one. -/
theorem C300_increments (cs : List (S × T × Nat)) :
    (∀ s, lcSrc (counted cs) s = total (fun s' _ => decide (s' = s)) cs) ∧
    (∀ t, lcTrg (counted cs) t = total (fun _ t' => decide (t' = t)) cs) ∧
    (∀ s t, lcSrcTrg (counted cs) s t = total (fun s' t' => decide (s' = s ∧ t' = t)) cs) ∧
    (∀ s t, pTrgGivenSrc (counted cs) s t = some ((total (fun s' t' => decide (s' = s ∧ t' = t)) cs : Rat) /
      (total (fun s' _ => decide (s' = s)) cs : Rat))) ∧
    (∀ s t, pSrcGivenTrg (counted cs) s t = (total (fun s' t' => decide (s' = s ∧ t' = t)) cs : Rat) /
      (total (fun _ t' => decide (t' = t)) cs : Rat)) ∧
    (∀ s (ts : List T), ts.Nodup → (∀ t c, (s, t, c) ∈ cs → t ∈ ts) → 0 < total (fun s' _ => decide (s' = s)) cs →
      sumBy (fun t => (pTrgGivenSrc (counted cs) s t).getD 0) ts = 1) ∧
    ∀ t (ss : List S), ss.Nodup → (∀ s c, (s, t, c) ∈ cs → s ∈ ss) → 0 < total (fun _ t' => decide (t' = t)) cs →
      sumBy (fun s => pSrcGivenTrg (counted cs) s t) ss = 1 := by
  obtain ⟨h1, h2, h3, _, _⟩ := counted_spec cs
  have hp : ∀ s t, pSrcGivenTrg (counted cs) s t = (total (fun s' t' => decide (s' = s ∧ t' = t)) cs : Rat) /
      (total (fun _ t' => decide (t' = t)) cs : Rat) := by
    intro s t
    unfold pSrcGivenTrg
    rw [h2 t, h3 s t]
    split <;> rename_i h0
    · rw [h0]; simp [Rat.div_def]
    · rfl
  refine ⟨h1, h2, h3, counted_p cs, hp, ?_, ?_⟩
  · intro s ts hn hall hpos
    have : sumBy (fun t => (pTrgGivenSrc (counted cs) s t).getD 0) ts =
        sumBy (fun t => (total (fun s' _ => decide (s' = s)) cs : Rat)⁻¹ *
          (total (fun s' t' => decide (s' = s ∧ t' = t)) cs : Rat)) ts := by
      refine sumBy_congr fun t _ => ?_
      rw [counted_p]
      simp only [Option.getD_some, Rat.div_def]
      exact Rat.mul_comm _ _
    rw [this, sumBy_mul, sum_total_src cs s hn hall]
    exact Rat.inv_mul_cancel _ (cast_ne hpos)
  · intro t ss hn hall hpos
    have : sumBy (fun s => pSrcGivenTrg (counted cs) s t) ss =
        sumBy (fun s => (total (fun _ t' => decide (t' = t)) cs : Rat)⁻¹ *
          (total (fun s' t' => decide (s' = s ∧ t' = t)) cs : Rat)) ss := by
      refine sumBy_congr fun s _ => ?_
      rw [hp, Rat.div_def]
      exact Rat.mul_comm _ _
    rw [this, sumBy_mul, sum_total_trg cs t hn hall]
    exact Rat.inv_mul_cancel _ (cast_ne hpos)

/-- Non-vacuity. -/
example : pTrgGivenSrc (counted [(1, "a", 2), (1, "b", 1), (2, "a", 5), (1, "a", 1)]) 1 "a" = some (3 / 4) ∧
    pSrcGivenTrg (counted [(1, "a", 2), (1, "b", 1), (2, "a", 5), (1, "a", 1)]) 2 "a" = 5 / 8 := by decide +kernel

/-! ### C301: sources without a count -/

/-- Every count of a pair is set for a source that has a count. -/
def Sourced (f : S → Option Nat) : List (Op S T) → Prop
  | [] => True
  | o :: r =>
    (match o with
     | .srcTrg s _ _ => (f s).isSome
     | _ => True) ∧ Sourced (idealSrc f o) r

/-- The sources of the pairs have a count. -/
def Covered (m : Tab S T) : Prop := ∀ s t, (getSrcTrgInfo m s t).isSome → (getSrcInfo m s).isSome

theorem covered_step {m : Tab S T} (h : Covered m) {o : Op S T}
    (ho : match o with | .srcTrg s _ _ => (getSrcInfo m s).isSome | _ => True) : Covered (step m o) := by
  intro s' t'
  rw [step_src, step_pair]
  have h0 := h s' t'
  cases o with
  | src s c => simp only [idealPair, idealSrc]; intro hh; split <;> simp [h0 hh]
  | srcTrg s t c =>
    simp only [idealPair, idealSrc] at ho ⊢
    by_cases hc : s' = s ∧ t' = t
    · rw [hc.1]; intro _; exact ho
    · simp only [hc, if_false]; exact h0
  | entry s t cs cst =>
    simp only [idealPair, idealSrc]
    by_cases hc : s' = s
    · simp [hc]
    · simp only [hc, false_and, if_false]; exact h0
  | incr s t c =>
    simp only [idealPair, idealSrc]
    by_cases hc : s' = s
    · simp [hc]
    · simp only [hc, false_and, if_false]; exact h0
  | clear => intro hh; cases hh

theorem covered_run {ops : List (Op S T)} (h : Sourced (fun _ => none) ops) : Covered (run ops) := by
  have : ∀ (m : Tab S T), Covered m → Sourced (getSrcInfo m) ops → Covered (ops.foldl step m) := by
    clear h
    induction ops with
    | nil => intro m h _; exact h
    | cons o r ih =>
      intro m h hs
      obtain ⟨h1, h2⟩ := hs
      rw [← step_src] at h2
      refine ih _ (covered_step h ?_) h2
      cases o with
      | srcTrg s t c => exact h1
      | _ => trivial
  refine this Tab.new ?_ h
  intro s t hh; cases hh

/-- C301 in full: no query reads through an end iterator, after any history. -/
def C301_full : Prop :=
  ∀ (ops : List (Op Nat Nat)),
    (∀ s t, (infSrcTrg (run ops) s t).isSome) ∧ (∀ t l, (getEntriesForTarget (run ops) t l).isSome) ∧
    ∀ s l, (getEntriesForSource (run ops) s l).isSome

/-- After `addSrcTrgInfo(1,2,3)` with no count for the source 1, `infSrcTrg(1,2)` reads through `end()`. -/
theorem C301_counterexample : ¬ C301_full := by
  intro h
  have := (h [.srcTrg 1 2 3]).1 1 2
  revert this
  decide +kernel

/-- The entries of a target, in a table where the sources of the pairs have a count. -/
theorem entriesForTarget_spec {m : Tab S T} (hw : Wf m) (hc : Covered m) (t : T) (l : List (S × Nat × Nat)) :
    ∃ b r, getEntriesForTarget m t l = some (b, r) ∧ (b = true → ∀ s, lk r s =
      match getSrcTrgInfo m s t with
      | some cst => (getSrcInfo m s).map (fun cs => (cs, cst))
      | none => lk l s) ∧ (b = false → r = [] ∧ ∀ s, getSrcTrgInfo m s t = none) ∧ (Distinct l → Distinct r) := by
  unfold getEntriesForTarget
  cases hl : lk m.tbl t with
  | none =>
    exact ⟨false, [], rfl, by simp, fun _ => ⟨rfl, fun s => by simp [getSrcTrgInfo, hl]⟩, fun _ => distinct_nil⟩
  | some node =>
    have hcov : ∀ e ∈ node, (lk m.src e.1).isSome := by
      intro e he
      refine hc e.1 t ?_
      have : lk node e.1 = some e.2 := (lk_some_iff (node_of hw hl)).2 he
      simp [getSrcTrgInfo, hl, this]
    obtain ⟨r, hr, hlk⟩ := entriesLoop_some (acc := l) (node_of hw hl) hcov
    refine ⟨true, r, by simp [hr], fun _ s => ?_, by simp, fun hd => entriesLoop_distinct hd hr⟩
    rw [hlk s]
    simp only [getSrcTrgInfo, hl, getSrcInfo]
    try (cases lk node s <;> rfl)

/-- The entries of a source. -/
theorem entriesForSource_spec {m : Tab S T} (hw : Wf m) (hc : Covered m) (s : S) (l : List (T × Nat × Nat)) :
    ∃ b r, getEntriesForSource m s l = some (b, r) ∧ (∀ t, lk r t =
      match getSrcTrgInfo m s t with
      | some cst => (getSrcInfo m s).map (fun cs => (cs, cst))
      | none => lk l t) ∧ (b = true ↔ ∃ t, (getSrcTrgInfo m s t).isSome) ∧ (Distinct l → Distinct r) := by
  unfold getEntriesForSource
  have hget : ∀ t, (lk m.tbl t).bind (fun node => lk node s) = getSrcTrgInfo m s t := by
    intro t; unfold getSrcTrgInfo; cases lk m.tbl t <;> rfl
  have hany : (m.tbl.any (fun e => (lk e.2 s).isSome)) = true ↔ ∃ t, (getSrcTrgInfo m s t).isSome := by
    rw [List.any_eq_true]
    constructor
    · rintro ⟨e, he, hh⟩
      refine ⟨e.1, ?_⟩
      rw [← hget, (lk_some_iff hw.tbl).2 (show (e.1, e.2) ∈ m.tbl from he)]
      exact hh
    · rintro ⟨t, ht⟩
      rw [← hget] at ht
      cases hl : lk m.tbl t with
      | none => rw [hl] at ht; cases ht
      | some node => rw [hl] at ht; exact ⟨(t, node), (lk_some_iff hw.tbl).1 hl, ht⟩
  by_cases hs : (lk m.src s).isSome
  · obtain ⟨r, hr, hlk⟩ := entriesSrcLoop_some hs (ret := false) (acc := l) hw.tbl
    refine ⟨_, r, hr, fun t => ?_, ?_, fun hd => entriesSrcLoop_distinct hd hr⟩
    · rw [hlk t, hget]; rfl
    · rw [Bool.false_or]; exact hany
  · have hno : ∀ t, getSrcTrgInfo m s t = none := by
      intro t
      cases hg : getSrcTrgInfo m s t with
      | none => rfl
      | some c => exact absurd (hc s t (by simp [hg])) hs
    have hab : ∀ e ∈ m.tbl, lk e.2 s = none := by
      intro e he
      have h1 := hget e.1
      rw [(lk_some_iff hw.tbl).2 (show (e.1, e.2) ∈ m.tbl from he), hno] at h1
      exact h1
    have hr := entriesSrcLoop_absent (src := m.src) (ret := false) (acc := l) hab
    refine ⟨false, l, hr, fun t => by rw [hno t], ?_, fun hd => hd⟩
    simp [hno]

/-- C301: when each `addSrcTrgInfo` is called for a source that has a count, no query reads through an end iterator.
Missing: `C301_full`, refuted above. -/
theorem C301_sourced_partial (ops : List (Op S T)) (h : Sourced (fun _ => none) ops) :
    (∀ s t, (infSrcTrg (run ops) s t).isSome) ∧ (∀ t l, (getEntriesForTarget (run ops) t l).isSome) ∧
    ∀ s l, (getEntriesForSource (run ops) s l).isSome := by
  have hc := covered_run h
  have hw := run_wf ops
  refine ⟨?_, ?_, ?_⟩
  · intro s t
    have := hc s t
    unfold infSrcTrg
    unfold getSrcTrgInfo getSrcInfo at this
    cases hl : lk (run ops).tbl t with
    | none => rfl
    | some node =>
      simp only [hl] at this
      cases hn : lk node s with
      | none => simp [hn]
      | some cst =>
        rw [hn] at this
        obtain ⟨x, hx⟩ := Option.isSome_iff_exists.1 (this rfl)
        simp [hn, hx]
  · intro t l
    obtain ⟨b, r, hr, _⟩ := entriesForTarget_spec hw hc t l
    simp [hr]
  · intro s l
    obtain ⟨b, r, hr, _⟩ := entriesForSource_spec hw hc s l
    simp [hr]

/-- Non-vacuity. -/
example : Sourced (fun _ => none) ([.src 1 5, .srcTrg 1 "a" 2, .incr 2 "a" 1, .srcTrg 2 "b" 1] : List (Op Nat String)) := by
  refine ⟨trivial, ?_, trivial, ?_, trivial⟩ <;> decide

/-! ### C302: the entries of a target and of a source -/

/-- The entries of a target: its sources, with the counts of the source and of the pair. -/
def EntriesOfTrg (m : Tab S T) (t : T) (r : List (S × Nat × Nat)) : Prop :=
  Distinct r ∧ ∀ s cs cst, (s, cs, cst) ∈ r ↔ getSrcTrgInfo m s t = some cst ∧ getSrcInfo m s = some cs

/-- The entries of a source. -/
def EntriesOfSrc (m : Tab S T) (s : S) (r : List (T × Nat × Nat)) : Prop :=
  Distinct r ∧ ∀ t cs cst, (t, cs, cst) ∈ r ↔ getSrcTrgInfo m s t = some cst ∧ getSrcInfo m s = some cs

/-- C302 in full: whatever the node passed contains, it has exactly the entries afterwards. -/
def C302_full : Prop :=
  ∀ (ops : List (Op Nat Nat)), Sourced (fun _ => none) ops →
    (∀ t l, Distinct l → ∃ b r, getEntriesForTarget (run ops) t l = some (b, r) ∧ EntriesOfTrg (run ops) t r) ∧
    ∀ s l, Distinct l → ∃ b r, getEntriesForSource (run ops) s l = some (b, r) ∧ EntriesOfSrc (run ops) s r

/-- The node of a target passed for another one keeps the entries of the first. -/
theorem C302_counterexample : ¬ C302_full := by
  intro h
  obtain ⟨b, r, hr, _, hm⟩ := (h [.incr 1 2 3] ⟨trivial, trivial⟩).1 2 [(7, 1, 1)] (by simp [Distinct])
  have : getEntriesForTarget (run [.incr 1 2 3]) 2 [((7 : Nat), 1, 1)] = some (true, [(7, 1, 1), (1, 3, 3)]) := by
    decide +kernel
  rw [this] at hr
  cases hr
  have := (hm 7 1 1).1 (by simp)
  revert this
  decide +kernel

/-- C302: with an empty node, the entries are exactly those stored, and the result tells whether the target (the
source) has any entry.  Missing: `C302_full`, refuted above (the node is not cleared). -/
theorem C302_entries_partial (ops : List (Op S T)) (h : Sourced (fun _ => none) ops) :
    (∀ t, ∃ b r, getEntriesForTarget (run ops) t [] = some (b, r) ∧ EntriesOfTrg (run ops) t r ∧
      (b = false → r = [])) ∧
    ∀ s, ∃ b r, getEntriesForSource (run ops) s [] = some (b, r) ∧ EntriesOfSrc (run ops) s r ∧
      (b = false ↔ r = []) := by
  have hc := covered_run h
  have hw := run_wf ops
  constructor
  · intro t
    obtain ⟨b, r, hr, h1, h2, h3⟩ := entriesForTarget_spec hw hc t []
    refine ⟨b, r, hr, ⟨h3 distinct_nil, ?_⟩, fun hb => (h2 hb).1⟩
    intro s cs cst
    cases b with
    | false =>
      obtain ⟨e1, e2⟩ := h2 rfl
      simp [e1, e2 s]
    | true =>
      rw [← lk_some_iff (h3 distinct_nil), h1 rfl s]
      cases hg : getSrcTrgInfo (run ops) s t with
      | none => simp [lk]
      | some x => cases hi : getSrcInfo (run ops) s with
        | none => simp
        | some y => simp; constructor <;> (rintro ⟨rfl, rfl⟩; exact ⟨rfl, rfl⟩)
  · intro s
    obtain ⟨b, r, hr, h1, h2, h3⟩ := entriesForSource_spec hw hc s []
    refine ⟨b, r, hr, ⟨h3 distinct_nil, ?_⟩, ?_⟩
    · intro t cs cst
      rw [← lk_some_iff (h3 distinct_nil), h1 t]
      cases hg : getSrcTrgInfo (run ops) s t with
      | none => simp [lk]
      | some x => cases hi : getSrcInfo (run ops) s with
        | none => simp
        | some y => simp; constructor <;> (rintro ⟨rfl, rfl⟩; exact ⟨rfl, rfl⟩)
    · cases b with
      | false =>
        simp only [true_iff]
        have hno : ∀ t, getSrcTrgInfo (run ops) s t = none := by
          intro t
          cases hg : getSrcTrgInfo (run ops) s t with
          | none => rfl
          | some c => exact absurd (h2.2 ⟨t, by simp [hg]⟩) (by simp)
        cases r with
        | nil => rfl
        | cons e r' =>
          have := h1 e.1
          rw [hno e.1] at this
          simp [lk] at this
      | true =>
        obtain ⟨t, ht⟩ := h2.1 rfl
        constructor
        · intro hh; cases hh
        · intro hr0
          have h1t := h1 t
          obtain ⟨x, hx⟩ := Option.isSome_iff_exists.1 ht
          obtain ⟨y, hy⟩ := Option.isSome_iff_exists.1 (hc s t ht)
          rw [hr0, hx, hy] at h1t
          simp [lk] at h1t

/-- Non-vacuity. -/
example : getEntriesForTarget (run [.incr 1 "a" 3, .incr 2 "a" 4, .incr 2 "b" 1]) "a" [] =
    some (true, [(1, 3, 3), (2, 5, 4)]) ∧
    getEntriesForSource (run [.incr 1 "a" 3, .incr 2 "a" 4, .incr 2 "b" 1]) 2 [] =
      some (true, [("a", 5, 4), ("b", 5, 1)]) ∧
    getEntriesForSource (run [.incr 1 "a" 3, .incr 2 "a" 4, .incr 2 "b" 1]) 3 [] = some (false, []) := by
  decide +kernel

end Thot.CondTab
