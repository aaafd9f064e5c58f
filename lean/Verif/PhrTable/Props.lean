import Verif.PhrTable.Model
/-! C25, C26, C27: counts and probabilities of the in-memory phrase table. -/
namespace Thot.PhrTable
open AMap

/-! ### Look-ups after each function -/

/-- Counts recorded in a table, as functions. -/
def S (m : Table) (s : Phrase) : Rat := (lk m.src s).getD 0
def T (m : Table) (t : Phrase) : Rat := (lk m.trg t).getD 0
def ST (m : Table) (s t : Phrase) : Rat := (lk m.st (s, t)).getD 0

/-- Invariant of reachable tables: keys are distinct and the parts of every recorded pair are recorded. -/
structure Inv (m : Table) : Prop where
  dsrc : Distinct m.src
  dtrg : Distinct m.trg
  dst : Distinct m.st
  src : ∀ e ∈ m.st, (lk m.src e.1.1).isSome
  trg : ∀ e ∈ m.st, (lk m.trg e.1.2).isSome

theorem inv_empty : Inv empty :=
  ⟨distinct_nil, distinct_nil, distinct_nil, (by intro e he; cases he), (by intro e he; cases he)⟩

theorem st_none {m : Table} (h : Inv m) {s t : Phrase} (hs : lk m.src s = none) : lk m.st (s, t) = none := by
  apply Classical.byContradiction
  intro hn
  obtain ⟨c, hc⟩ := Option.ne_none_iff_exists'.1 hn
  have := h.src _ ((lk_some_iff h.dst).1 hc)
  simp only at this
  rw [hs] at this; cases this

/-- What `getSrcTrgKey` leaves. -/
def touch (m : Table) (t : Phrase) : Table := if (lk m.trg t).isSome then m else addTrgInfo m t 0

theorem touch_src (m : Table) (t : Phrase) : (touch m t).src = m.src := by
  unfold touch addTrgInfo; split <;> rfl
theorem touch_st (m : Table) (t : Phrase) : (touch m t).st = m.st := by
  unfold touch addTrgInfo; split <;> rfl
theorem touch_T (m : Table) (t t' : Phrase) : T (touch m t) t' = T m t' := by
  unfold touch addTrgInfo T
  split
  · rfl
  · next h =>
    simp only [lk_put]
    split
    · next e => subst e; cases hk : lk m.trg t' <;> simp_all
    · rfl
theorem touch_some (m : Table) (t : Phrase) : (lk (touch m t).trg t).isSome := by
  unfold touch addTrgInfo
  split
  · assumption
  · simp
theorem touch_mono (m : Table) (t t' : Phrase) (h : (lk m.trg t').isSome) : (lk (touch m t).trg t').isSome := by
  unfold touch addTrgInfo
  split
  · assumption
  · simp only [lk_put]; split <;> simp_all

theorem inv_touch {m : Table} (h : Inv m) (t : Phrase) : Inv (touch m t) := by
  refine ⟨by rw [touch_src]; exact h.dsrc, ?_, by rw [touch_st]; exact h.dst, ?_, ?_⟩
  · unfold touch addTrgInfo; split
    · exact h.dtrg
    · exact distinct_put h.dtrg _ _
  · intro e he; rw [touch_st] at he; rw [touch_src]; exact h.src e he
  · intro e he; rw [touch_st] at he; exact touch_mono m t _ (h.trg e he)

theorem getSrcTrgInfo_eq {m : Table} (h : Inv m) (s t : Phrase) :
    getSrcTrgInfo m s t = ((ST m s t, (lk m.st (s, t)).isSome), touch m t) := by
  unfold getSrcTrgInfo getSrcTrgKey
  simp only []
  rw [show (if (lk m.trg t).isSome = true then m else addTrgInfo m t 0) = touch m t from rfl]
  cases hs : lk m.src s with
  | none => simp [ST, st_none h hs]
  | some c => simp [ST, touch_st]

theorem cSrcTrg_eq {m : Table} (h : Inv m) (s t : Phrase) : cSrcTrg m s t = (ST m s t, touch m t) := by
  unfold cSrcTrg; rw [getSrcTrgInfo_eq h]

theorem cSrc_eq (m : Table) (s : Phrase) : cSrc m s = S m s := rfl
theorem cTrg_eq (m : Table) (t : Phrase) : cTrg m t = T m t := rfl

/-- The table after recording `cs`, `ct`, `cst` for a pair. -/
def record (m : Table) (s t : Phrase) (cs ct cst : Rat) : Table :=
  ⟨put m.src s cs, put m.trg t ct, put m.st (s, t) cst⟩

theorem add_record (m : Table) (s t : Phrase) (cs ct cst : Rat) :
    addSrcTrgInfo (addTrgInfo (addSrcInfo m s cs) t ct) s t cst = some (record m s t cs ct cst) := by
  unfold addSrcTrgInfo getSrcTrgKey
  simp [addTrgInfo, addSrcInfo, record]

theorem inv_record {m : Table} (h : Inv m) (s t : Phrase) (cs ct cst : Rat) : Inv (record m s t cs ct cst) := by
  refine ⟨distinct_put h.dsrc _ _, distinct_put h.dtrg _ _, distinct_put h.dst _ _, ?_, ?_⟩ <;> intro e he
  all_goals
    have hd := distinct_put h.dst (s, t) cst
    have := (lk_some_iff hd).2 (show (e.1, e.2) ∈ put m.st (s, t) cst from he)
    rw [lk_put] at this
    simp only [record, lk_put]
    split at this
    · next he => rw [he]; simp
    · have := (lk_some_iff h.dst).1 this
      split
      · rfl
      · first | exact h.src _ this | exact h.trg _ this

theorem record_S (m : Table) (s t : Phrase) (cs ct cst : Rat) (s' : Phrase) :
    S (record m s t cs ct cst) s' = if s' = s then cs else S m s' := by
  unfold S record; simp only [lk_put]; split <;> rfl
theorem record_T (m : Table) (s t : Phrase) (cs ct cst : Rat) (t' : Phrase) :
    T (record m s t cs ct cst) t' = if t' = t then ct else T m t' := by
  unfold T record; simp only [lk_put]; split <;> rfl
theorem record_ST (m : Table) (s t : Phrase) (cs ct cst : Rat) (s' t' : Phrase) :
    ST (record m s t cs ct cst) s' t' = if s' = s ∧ t' = t then cst else ST m s' t' := by
  unfold ST record; simp only [lk_put, Prod.mk.injEq]; split <;> rfl

theorem incr_eq {m : Table} (h : Inv m) (s t : Phrase) (c : Rat) :
    incrCountsOfEntry m s t c = some (record (touch m t) s t (S m s + c) (T m t + c) (ST m s t + c)) := by
  unfold incrCountsOfEntry
  rw [cSrcTrg_eq h]
  simp only [add_record]
  rfl

theorem add_eq (m : Table) (s t : Phrase) (cs cst : Rat) :
    addTableEntry m s t cs cst = some (record m s t cs (T m t + cst) cst) := by
  unfold addTableEntry
  simp only [add_record]
  rfl

/-! ### `getEntriesForTarget` scans exactly the pairs of the target phrase -/

theorem minKey_le : ∀ (l : List (Phrase × Rat)) (k : Phrase), minKey l = some k → (∀ e ∈ l, ¬ e.1 < k) ∧ k ∈ l.map Prod.fst
  | [], k, h => by cases h
  | e :: r, k, h => by
    rw [minKey] at h
    cases hr : minKey r with
    | none =>
      rw [hr] at h
      injection h with h; subst h
      have : r = [] := by
        cases r with
        | nil => rfl
        | cons a b => rw [minKey] at hr; split at hr <;> (try split at hr) <;> cases hr
      subst this
      refine ⟨?_, by simp⟩
      intro e' he'
      simp only [List.mem_singleton] at he'
      subst he'
      exact List.lt_irrefl _
    | some k' =>
      rw [hr] at h
      obtain ⟨ih, ihm⟩ := minKey_le r k' hr
      simp only at h
      split at h <;> injection h with h <;> subst h
      · next hlt =>
        refine ⟨?_, by simp⟩
        intro e' he'
        rcases List.mem_cons.1 he' with rfl | he'
        · exact List.lt_irrefl _
        · intro hc; exact ih e' he' (List.lt_trans hc hlt)
      · next hlt =>
        refine ⟨?_, List.mem_cons_of_mem _ ihm⟩
        intro e' he'
        rcases List.mem_cons.1 he' with rfl | he'
        · exact hlt
        · exact ih e' he'

theorem maxKey_ge : ∀ (l : List (Phrase × Rat)) (k : Phrase), maxKey l = some k → (∀ e ∈ l, ¬ k < e.1) ∧ k ∈ l.map Prod.fst
  | [], k, h => by cases h
  | e :: r, k, h => by
    rw [maxKey] at h
    cases hr : maxKey r with
    | none =>
      rw [hr] at h
      injection h with h; subst h
      have : r = [] := by
        cases r with
        | nil => rfl
        | cons a b => rw [maxKey] at hr; split at hr <;> (try split at hr) <;> cases hr
      subst this
      refine ⟨?_, by simp⟩
      intro e' he'
      simp only [List.mem_singleton] at he'
      subst he'
      exact List.lt_irrefl _
    | some k' =>
      rw [hr] at h
      obtain ⟨ih, ihm⟩ := maxKey_ge r k' hr
      simp only at h
      split at h <;> injection h with h <;> subst h
      · next hlt =>
        refine ⟨?_, by simp⟩
        intro e' he'
        rcases List.mem_cons.1 he' with rfl | he'
        · exact List.lt_irrefl _
        · intro hc; exact ih e' he' (List.lt_trans hlt hc)
      · next hlt =>
        refine ⟨?_, List.mem_cons_of_mem _ ihm⟩
        intro e' he'
        rcases List.mem_cons.1 he' with rfl | he'
        · exact hlt
        · exact ih e' he'

theorem minKey_some {l : List (Phrase × Rat)} (h : l ≠ []) : ∃ k, minKey l = some k := by
  cases l with
  | nil => exact absurd rfl h
  | cons e r => rw [minKey]; split <;> (try split) <;> exact ⟨_, rfl⟩
theorem maxKey_some {l : List (Phrase × Rat)} (h : l ≠ []) : ∃ k, maxKey l = some k := by
  cases l with
  | nil => exact absurd rfl h
  | cons e r => rw [maxKey]; split <;> (try split) <;> exact ⟨_, rfl⟩

/-- The entries of a target phrase: the recorded pairs with that target whose counts are not negligible. -/
def targetEntries (m : Table) (t : Phrase) : List (Phrase × (Rat × Rat)) :=
  (m.st.filter (fun e => e.1.2 = t)).filterMap (srcEntry m)

theorem srcEntry_touch (m : Table) (t : Phrase) : srcEntry (touch m t) = srcEntry m := by
  funext e; simp only [srcEntry, touch_src]

theorem lk_isSome_iff {K V : Type} [DecidableEq K] {l : List (K × V)} {k : K} : (lk l k).isSome ↔ k ∈ l.map Prod.fst := by
  cases h : lk l k with
  | none => simp [lk_none_iff.1 h]
  | some v =>
    simp only [Option.isSome_some, true_iff]
    apply Classical.byContradiction
    intro hn
    rw [lk_none_iff.2 hn] at h; cases h

theorem touch_touch (m : Table) (t : Phrase) : touch (touch m t) t = touch m t := by
  rw [touch, if_pos (touch_some m t)]

theorem entriesForTarget_eq {m : Table} (h : Inv m) (hne : m.src ≠ []) (t : Phrase) :
    getEntriesForTarget m t = some ((targetEntries m t, !(targetEntries m t).isEmpty), touch m t) := by
  obtain ⟨lo, hlo⟩ := minKey_some hne
  obtain ⟨hi, hhi⟩ := maxKey_some hne
  obtain ⟨hl, hlm⟩ := minKey_le _ _ hlo
  obtain ⟨hh, hhm⟩ := maxKey_ge _ _ hhi
  unfold getEntriesForTarget getSrcTrgKey
  rw [hlo, hhi]
  simp only []
  rw [show (if (lk m.trg t).isSome = true then m else addTrgInfo m t 0) = touch m t from rfl, touch_src,
    if_pos (lk_isSome_iff.2 hlm), if_pos (lk_isSome_iff.2 hhm),
    show (if (lk (touch m t).trg t).isSome = true then touch m t else addTrgInfo (touch m t) t 0) = touch m t from touch_touch m t]
  have : ((touch m t).st.filter (fun e => !keyLt e.1 (lo, t) && !keyLt (hi, t) e.1)).filterMap (srcEntry (touch m t))
      = targetEntries m t := by
    rw [touch_st, srcEntry_touch, targetEntries]
    congr 1
    apply List.filter_congr
    intro e he
    have hs := lk_isSome_iff.1 (h.src e he)
    obtain ⟨x, hx, hx'⟩ := List.mem_map.1 hs
    have h1 := hl x hx
    have h2 := hh x hx
    rw [hx'] at h1 h2
    simp only [keyLt]
    by_cases ht : e.1.2 = t
    · simp [ht, h1, h2]
    · have ht' : ¬ t = e.1.2 := fun hc => ht hc.symm
      simp only [ht, ht', if_false, decide_false]
      by_cases h3 : e.1.2 < t
      · simp [h3]
      · have : t < e.1.2 := by
          apply Classical.byContradiction
          intro h4
          exact ht (List.le_antisymm (List.not_lt.1 h4) (List.not_lt.1 h3))
        simp [this]
  rw [this]

/-! ### Every call -/

/-- Calls that do not change the counts. -/
def Op.query : Op → Bool
  | .incr .. => false
  | .add .. => false
  | _ => true

/-- `m'` has the same sources, pairs and counts as `m`; only targets with count 0 may have been added. -/
def Same (m m' : Table) : Prop := m'.src = m.src ∧ m'.st = m.st ∧ (∀ t, T m' t = T m t) ∧
  (∀ t, (lk m.trg t).isSome → (lk m'.trg t).isSome)

theorem same_refl (m : Table) : Same m m := ⟨rfl, rfl, fun _ => rfl, fun _ h => h⟩
theorem same_touch (m : Table) (t : Phrase) : Same m (touch m t) :=
  ⟨touch_src m t, touch_st m t, touch_T m t, touch_mono m t⟩

theorem pTrg_eq {m : Table} (h : Inv m) (s t : Phrase) :
    pTrgGivenSrc m s t = (if ST m s t > 0 ∧ S m s > 0 then ST m s t / S m s else smooth, touch m t) := by
  unfold pTrgGivenSrc
  rw [cSrcTrg_eq h]
  have e : cSrc (touch m t) s = S m s := by rw [cSrc_eq]; unfold S; rw [touch_src]
  simp only [e]
  by_cases h1 : ST m s t > 0 <;> by_cases h2 : S m s > 0 <;> simp [h1, h2]

theorem pSrc_eq {m : Table} (h : Inv m) (s t : Phrase) :
    pSrcGivenTrg m s t = (if ST m s t > 0 ∧ T m t > 0 then ST m s t / T m t else smooth, touch m t) := by
  unfold pSrcGivenTrg
  rw [cSrcTrg_eq h]
  simp only [cTrg_eq, touch_T]
  by_cases h1 : ST m s t > 0 <;> by_cases h2 : T m t > 0 <;> simp [h1, h2]

theorem inf_eq {m : Table} (h : Inv m) (s t : Phrase) :
    infSrcTrg m s t = (((S m s, ST m s t), (lk m.st (s, t)).isSome),
      if (lk m.src s).isSome then touch m t else m) := by
  unfold infSrcTrg getSrcInfo
  simp only []
  cases hs : lk m.src s with
  | none => simp [S, ST, hs, st_none h hs]
  | some c => rw [getSrcTrgInfo_eq h]; simp [S, hs]

theorem step_query {m : Table} (h : Inv m) (o : Op) (ho : o.query) {r : Res} {m' : Table}
    (hs : step m o = some (r, m')) : Inv m' ∧ Same m m' := by
  cases o with
  | incr s t c => cases ho
  | add s t c d => cases ho
  | cSrc s => simp only [step, Option.some.injEq, Prod.mk.injEq] at hs; obtain ⟨_, rfl⟩ := hs; exact ⟨h, same_refl m⟩
  | cTrg s => simp only [step, Option.some.injEq, Prod.mk.injEq] at hs; obtain ⟨_, rfl⟩ := hs; exact ⟨h, same_refl m⟩
  | entriesForSource s =>
    simp only [step, Option.some.injEq, Prod.mk.injEq] at hs; obtain ⟨_, rfl⟩ := hs; exact ⟨h, same_refl m⟩
  | size => simp only [step, Option.some.injEq, Prod.mk.injEq] at hs; obtain ⟨_, rfl⟩ := hs; exact ⟨h, same_refl m⟩
  | cSrcTrg s t =>
    simp only [step, Option.some.injEq, Prod.mk.injEq, cSrcTrg_eq h] at hs
    obtain ⟨_, rfl⟩ := hs
    exact ⟨inv_touch h t, same_touch m t⟩
  | pTrgGivenSrc s t =>
    simp only [step, Option.some.injEq, Prod.mk.injEq, pTrg_eq h] at hs
    obtain ⟨_, rfl⟩ := hs
    exact ⟨inv_touch h t, same_touch m t⟩
  | pSrcGivenTrg s t =>
    simp only [step, Option.some.injEq, Prod.mk.injEq, pSrc_eq h] at hs
    obtain ⟨_, rfl⟩ := hs
    exact ⟨inv_touch h t, same_touch m t⟩
  | infSrcTrg s t =>
    simp only [step, Option.some.injEq, Prod.mk.injEq, inf_eq h] at hs
    obtain ⟨_, rfl⟩ := hs
    split
    · exact ⟨inv_touch h t, same_touch m t⟩
    · exact ⟨h, same_refl m⟩
  | entriesForTarget t =>
    simp only [step] at hs
    by_cases hne : m.src = []
    · unfold getEntriesForTarget at hs; rw [hne] at hs; simp [minKey] at hs
    · rw [entriesForTarget_eq h hne] at hs
      simp only [Option.map_some, Option.some.injEq, Prod.mk.injEq] at hs
      obtain ⟨_, rfl⟩ := hs
      exact ⟨inv_touch h t, same_touch m t⟩

theorem step_inv {m : Table} (h : Inv m) (o : Op) {r : Res} {m' : Table} (hs : step m o = some (r, m')) : Inv m' := by
  by_cases ho : o.query
  · exact (step_query h o ho hs).1
  · cases o with
    | incr s t c =>
      simp only [step, incr_eq h, Option.map_some, Option.some.injEq, Prod.mk.injEq] at hs
      rw [← hs.2]
      exact inv_record (inv_touch h t) ..
    | add s t c d =>
      simp only [step, add_eq, Option.map_some, Option.some.injEq, Prod.mk.injEq] at hs
      rw [← hs.2]
      exact inv_record h ..
    | _ => exact absurd rfl ho

theorem run_inv : ∀ (os : List Op) {m m' : Table}, Inv m → run m os = some m' → Inv m'
  | [], m, m', h, hr => by rw [run] at hr; injection hr with hr; rw [← hr]; exact h
  | o :: os, m, m', h, hr => by
    rw [run] at hr
    cases hs : step m o with
    | none => rw [hs] at hr; cases hr
    | some p =>
      rw [hs] at hr
      exact run_inv os (step_inv h o (show step m o = some (p.1, p.2) from hs)) hr

/-! ### C25: increments -/

/-- Sum of the increments of a history that satisfy `p`. -/
def total (p : Phrase → Phrase → Bool) : List Op → Rat
  | [] => 0
  | .incr s t c :: os => (if p s t then c else 0) + total p os
  | _ :: os => total p os

/-- Histories of increments and queries. -/
def NoAdd (os : List Op) : Prop := ∀ s t c d, Op.add s t c d ∉ os

theorem total_query (p : Phrase → Phrase → Bool) (o : Op) (os : List Op) (ho : o.query) : total p (o :: os) = total p os := by
  cases o <;> first | rfl | cases ho

theorem run_counts : ∀ (os : List Op) {m m' : Table}, Inv m → NoAdd os → run m os = some m' →
    (∀ s, S m' s = S m s + total (fun a _ => a = s) os) ∧ (∀ t, T m' t = T m t + total (fun _ b => b = t) os) ∧
    (∀ s t, ST m' s t = ST m s t + total (fun a b => a = s ∧ b = t) os) ∧
    (∀ s t, (lk m'.st (s, t)).isSome ↔ (lk m.st (s, t)).isSome ∨ ∃ c, Op.incr s t c ∈ os)
  | [], m, m', h, _, hr => by
    rw [run] at hr; injection hr with hr; subst hr
    simp [total, Rat.add_zero]
  | o :: os, m, m', h, hna, hr => by
    rw [run] at hr
    cases hs : step m o with
    | none => rw [hs] at hr; cases hr
    | some p =>
      rw [hs] at hr
      have hs' : step m o = some (p.1, p.2) := hs
      have hi := step_inv h o hs'
      obtain ⟨i1, i2, i3, i4⟩ := run_counts os hi (fun s t c d hm => hna s t c d (List.mem_cons_of_mem _ hm)) hr
      by_cases ho : o.query
      · obtain ⟨_, q1, q2, q3, _⟩ := step_query h o ho hs'
        refine ⟨?_, ?_, ?_, ?_⟩
        · intro s; rw [i1, total_query _ _ _ ho]; unfold S; rw [q1]
        · intro t; rw [i2, total_query _ _ _ ho, q3]
        · intro s t; rw [i3, total_query _ _ _ ho]; unfold ST; rw [q2]
        · intro s t; rw [i4, q2]
          constructor
          · rintro (h | ⟨c, hc⟩)
            · exact .inl h
            · exact .inr ⟨c, List.mem_cons_of_mem _ hc⟩
          · rintro (h | ⟨c, hc⟩)
            · exact .inl h
            · rcases List.mem_cons.1 hc with rfl | hc
              · cases ho
              · exact .inr ⟨c, hc⟩
      · cases o with
        | add s t c d => exact absurd (List.mem_cons_self ..) (hna s t c d)
        | incr s t c =>
          simp only [step, incr_eq h, Option.map_some, Option.some.injEq] at hs'
          have hp : p.2 = record (touch m t) s t (S m s + c) (T m t + c) (ST m s t + c) := by
            rw [Prod.mk.injEq] at hs'; exact hs'.2.symm
          have e1 : ∀ s', S (touch m t) s' = S m s' := by intro s'; unfold S; rw [touch_src]
          have e3 : ∀ s' t', ST (touch m t) s' t' = ST m s' t' := by intro s' t'; unfold ST; rw [touch_st]
          refine ⟨?_, ?_, ?_, ?_⟩
          · intro s'
            rw [i1, hp, record_S, e1, total]
            by_cases he : s = s'
            · subst he; simp; grind
            · have : ¬ s' = s := fun hc => he hc.symm
              simp [he, this]; grind
          · intro t'
            rw [i2, hp, record_T, touch_T, total]
            by_cases he : t = t'
            · subst he; simp; grind
            · have : ¬ t' = t := fun hc => he hc.symm
              simp [he, this]; grind
          · intro s' t'
            rw [i3, hp, record_ST, e3, total]
            by_cases he : s = s' ∧ t = t'
            · obtain ⟨rfl, rfl⟩ := he; simp; grind
            · have : ¬ (s' = s ∧ t' = t) := fun hc => he ⟨hc.1.symm, hc.2.symm⟩
              simp [he, this]; grind
          · intro s' t'
            rw [i4, hp]
            simp only [record, lk_put, touch_st, Prod.mk.injEq, List.mem_cons, Op.incr.injEq]
            by_cases he : s' = s ∧ t' = t
            · obtain ⟨rfl, rfl⟩ := he; simp
            · simp only [he, if_false]
              constructor
              · rintro (h | ⟨c', hc⟩)
                · exact .inl h
                · exact .inr ⟨c', .inr hc⟩
              · rintro (h | ⟨c', hc | hc⟩)
                · exact .inl h
                · exact absurd ⟨hc.1, hc.2.1⟩ he
                · exact .inr ⟨c', hc⟩
        | _ => exact absurd rfl ho

/-- **C25 (counts).** After any history of increments and queries, each count is the sum of the increments given: over
all pairs with that source, with that target, and of that pair. -/
theorem C25_counts (os : List Op) (hna : NoAdd os) (m : Table) (hr : run empty os = some m) (s t : Phrase) :
    cSrc m s = total (fun a _ => a = s) os ∧ cTrg m t = total (fun _ b => b = t) os ∧
    (cSrcTrg m s t).1 = total (fun a b => a = s ∧ b = t) os := by
  obtain ⟨h1, h2, h3, _⟩ := run_counts os inv_empty hna hr
  have hi := run_inv os inv_empty hr
  rw [cSrcTrg_eq hi]
  refine ⟨?_, ?_, ?_⟩
  · rw [cSrc_eq, h1]; exact Rat.zero_add _
  · rw [cTrg_eq, h2]; exact Rat.zero_add _
  · simp only []; rw [h3]; exact Rat.zero_add _

theorem sum_zero {α : Type} (l : List α) (f : α → Rat) (h : ∀ a ∈ l, f a = 0) : (l.map f).sum = 0 := by
  induction l with
  | nil => rfl
  | cons a l ih =>
    rw [List.map_cons, List.sum_cons, h a (List.mem_cons_self ..), ih (fun b hb => h b (List.mem_cons_of_mem _ hb))]
    exact Rat.add_zero _

theorem sum_add {α : Type} (l : List α) (f g : α → Rat) : (l.map (fun a => f a + g a)).sum = (l.map f).sum + (l.map g).sum := by
  induction l with
  | nil => exact (Rat.add_zero _).symm
  | cons a l ih => simp only [List.map_cons, List.sum_cons]; rw [ih]; grind

theorem sum_single {α : Type} [DecidableEq α] (l : List α) (hn : l.Nodup) (x : α) (c : Rat) (hx : x ∈ l) :
    (l.map (fun a => if x = a then c else 0)).sum = c := by
  induction l with
  | nil => cases hx
  | cons a l ih =>
    rw [List.nodup_cons] at hn
    rw [List.map_cons, List.sum_cons]
    rcases List.mem_cons.1 hx with rfl | hx
    · rw [if_pos rfl, sum_zero]
      · exact Rat.add_zero _
      · intro b hb; rw [if_neg]; rintro rfl; exact hn.1 hb
    · rw [ih hn.2 hx, if_neg (fun (hc : x = a) => hn.1 (hc ▸ hx))]
      exact Rat.zero_add _

theorem total_targets (s : Phrase) (ts : List Phrase) (hn : ts.Nodup) : ∀ (os : List Op),
    (∀ t c, Op.incr s t c ∈ os → t ∈ ts) →
    (ts.map (fun t => total (fun a b => a = s ∧ b = t) os)).sum = total (fun a _ => a = s) os
  | [], _ => sum_zero _ _ (fun _ _ => rfl)
  | o :: os, h => by
    have ih := total_targets s ts hn os (fun t c hm => h t c (List.mem_cons_of_mem _ hm))
    by_cases ho : o.query
    · simp only [total_query _ _ _ ho]; exact ih
    · cases o with
      | incr a b c =>
        simp only [total]
        rw [sum_add, ih]
        congr 1
        by_cases ha : a = s
        · subst ha
          simp only [true_and, decide_eq_true_eq, if_true]
          exact sum_single ts hn b c (h b c (List.mem_cons_self ..))
        · simp only [ha, false_and, decide_false]
          exact sum_zero _ _ (fun _ _ => rfl)
      | add => exact ih
      | _ => exact absurd rfl ho

theorem total_sources (t : Phrase) (ss : List Phrase) (hn : ss.Nodup) : ∀ (os : List Op),
    (∀ s c, Op.incr s t c ∈ os → s ∈ ss) →
    (ss.map (fun s => total (fun a b => a = s ∧ b = t) os)).sum = total (fun _ b => b = t) os
  | [], _ => sum_zero _ _ (fun _ _ => rfl)
  | o :: os, h => by
    have ih := total_sources t ss hn os (fun t c hm => h t c (List.mem_cons_of_mem _ hm))
    by_cases ho : o.query
    · simp only [total_query _ _ _ ho]; exact ih
    · cases o with
      | incr a b c =>
        simp only [total]
        rw [sum_add, ih]
        congr 1
        by_cases hb : b = t
        · subst hb
          simp only [and_true, decide_eq_true_eq, if_true]
          exact sum_single ss hn a c (h a c (List.mem_cons_self ..))
        · simp only [hb, and_false, decide_false]
          exact sum_zero _ _ (fun _ _ => rfl)
      | add => exact ih
      | _ => exact absurd rfl ho

/-- **C25 (marginals).** After any history of increments and queries, `c(s)` is the sum of `c(s,t)` over any list of
distinct targets that contains those recorded with `s`; likewise `c(t)`. -/
theorem C25_marginals (os : List Op) (hna : NoAdd os) (m : Table) (hr : run empty os = some m) :
    (∀ s (ts : List Phrase), ts.Nodup → (∀ t c, Op.incr s t c ∈ os → t ∈ ts) →
      cSrc m s = (ts.map (fun t => (cSrcTrg m s t).1)).sum) ∧
    (∀ t (ss : List Phrase), ss.Nodup → (∀ s c, Op.incr s t c ∈ os → s ∈ ss) →
      cTrg m t = (ss.map (fun s => (cSrcTrg m s t).1)).sum) := by
  have hc := C25_counts os hna m hr
  constructor
  · intro s ts hn ht
    rw [(hc s []).1, ← total_targets s ts hn os ht]
    congr 1
    exact List.map_congr_left (fun t _ => ((hc s t).2.2).symm)
  · intro t ss hn hs
    rw [(hc [] t).2.1, ← total_sources t ss hn os hs]
    congr 1
    exact List.map_congr_left (fun s _ => ((hc s t).2.2).symm)

theorem total_nonneg (p : Phrase → Phrase → Bool) : ∀ (os : List Op), (∀ s t c, Op.incr s t c ∈ os → eps ≤ c) →
    0 ≤ total p os ∧ ∀ s t c, Op.incr s t c ∈ os → p s t → eps ≤ total p os
  | [], _ => ⟨by rw [total]; exact Rat.le_refl, by intro s t c hm; cases hm⟩
  | o :: os, h => by
    have he : (0 : Rat) < eps := by decide +kernel
    obtain ⟨ih0, ih⟩ := total_nonneg p os (fun s t c hm => h s t c (List.mem_cons_of_mem _ hm))
    by_cases ho : o.query
    · rw [total_query _ _ _ ho]
      refine ⟨ih0, ?_⟩
      intro s t c hm hp
      rcases List.mem_cons.1 hm with rfl | hm
      · cases ho
      · exact ih s t c hm hp
    · cases o with
      | incr a b d =>
        have hd := h a b d (List.mem_cons_self ..)
        rw [total]
        refine ⟨by split <;> grind, ?_⟩
        intro s t c hm hp
        rcases List.mem_cons.1 hm with hm | hm
        · injection hm with h1 h2 h3; subst h1 h2 h3
          rw [if_pos hp]; grind
        · have := ih s t c hm hp
          split <;> grind
      | add =>
        refine ⟨ih0, ?_⟩
        intro s t c hm hp
        rcases List.mem_cons.1 hm with hm | hm
        · cases hm
        · exact ih s t c hm hp
      | _ => exact absurd rfl ho

theorem rabs_ge {x : Rat} (h : eps ≤ x) : ¬ rabs x < eps := by
  have he : (0 : Rat) < eps := by decide +kernel
  unfold rabs
  have : ¬ x < 0 := by grind
  rw [if_neg this]; grind

theorem sum_div {α : Type} (l : List α) (f : α → Rat) (c : Rat) : (l.map (fun a => f a / c)).sum = (l.map f).sum / c := by
  induction l with
  | nil => simp only [List.map_nil, List.sum_nil]; grind
  | cons a l ih => simp only [List.map_cons, List.sum_cons]; rw [ih]; grind

theorem filterMap_congr' {α β : Type} {l : List α} {f g : α → Option β} (h : ∀ a ∈ l, f a = g a) :
    l.filterMap f = l.filterMap g := by
  induction l with
  | nil => rfl
  | cons a l ih =>
    rw [List.filterMap_cons, List.filterMap_cons, h a (List.mem_cons_self ..), ih (fun b hb => h b (List.mem_cons_of_mem _ hb))]

/-- Entries with a given source: keys are distinct and complete. -/
theorem entriesForSource_keys {m : Table} (s : Phrase)
    (hbig : ∀ e ∈ m.st, e.1.1 = s → ¬ rabs (T m e.1.2) < eps ∧ ¬ rabs e.2 < eps) :
    (getEntriesForSource m s).1 = (m.st.filter (fun e => e.1.1 = s)).map (fun e => (e.1.2, (T m e.1.2, e.2))) := by
  simp only [getEntriesForSource]
  rw [← List.filterMap_eq_map]
  apply filterMap_congr'
  intro e he
  rw [List.mem_filter] at he
  obtain ⟨h1, h2⟩ := hbig e he.1 (by simpa using he.2)
  rw [show T m e.1.2 = (lk m.trg e.1.2).getD 0 from rfl] at h1
  simp only [trgEntry, h1, h2, or_self, if_false, Function.comp]
  rfl

theorem targetEntries_eq {m : Table} (t : Phrase)
    (hbig : ∀ e ∈ m.st, e.1.2 = t → ¬ rabs (S m e.1.1) < eps ∧ ¬ rabs e.2 < eps) :
    targetEntries m t = (m.st.filter (fun e => e.1.2 = t)).map (fun e => (e.1.1, (S m e.1.1, e.2))) := by
  rw [targetEntries, ← List.filterMap_eq_map]
  apply filterMap_congr'
  intro e he
  rw [List.mem_filter] at he
  obtain ⟨h1, h2⟩ := hbig e he.1 (by simpa using he.2)
  rw [show S m e.1.1 = (lk m.src e.1.1).getD 0 from rfl] at h1
  simp only [srcEntry, h1, h2, or_self, if_false, Function.comp]
  rfl

/-- **C25 (probabilities).** After any history of increments (each at least EPSILON) and queries: the entries returned
for a source phrase are, without repetition, the targets it was incremented with, each with its counts, and the returned
probabilities `p(t|s)` over those targets sum to one; symmetrically for a target phrase. -/
theorem C25_probs (os : List Op) (hna : NoAdd os) (hpos : ∀ s t c, Op.incr s t c ∈ os → eps ≤ c) (m : Table)
    (hr : run empty os = some m) :
    (∀ s, (getEntriesForSource m s).1.map Prod.fst |>.Nodup) ∧
    (∀ s t, t ∈ (getEntriesForSource m s).1.map Prod.fst ↔ ∃ c, Op.incr s t c ∈ os) ∧
    (∀ s, ∀ e ∈ (getEntriesForSource m s).1, e.2 = (cTrg m e.1, (cSrcTrg m s e.1).1)) ∧
    (∀ s, (∃ t c, Op.incr s t c ∈ os) →
      ((getEntriesForSource m s).1.map (fun e => (pTrgGivenSrc m s e.1).1)).sum = 1) ∧
    (∀ t r m', getEntriesForTarget m t = some (r, m') →
      (r.1.map Prod.fst).Nodup ∧ (∀ s, s ∈ r.1.map Prod.fst ↔ ∃ c, Op.incr s t c ∈ os) ∧
      (∀ e ∈ r.1, e.2 = (cSrc m e.1, (cSrcTrg m e.1 t).1)) ∧
      ((∃ s c, Op.incr s t c ∈ os) → (r.1.map (fun e => (pSrcGivenTrg m e.1 t).1)).sum = 1)) := by
  have he : (0 : Rat) < eps := by decide +kernel
  have hi := run_inv os inv_empty hr
  have hc := C25_counts os hna m hr
  obtain ⟨hm1, hm2⟩ := C25_marginals os hna m hr
  obtain ⟨_, _, _, hex⟩ := run_counts os inv_empty hna hr
  have hmem : ∀ s t, (∃ c, ((s, t), c) ∈ m.st) ↔ ∃ c, Op.incr s t c ∈ os := by
    intro s t
    have := hex s t
    rw [show lk empty.st (s, t) = none from rfl] at this
    simp only [Option.isSome_none, Bool.false_eq_true, false_or] at this
    rw [← this, Option.isSome_iff_exists]
    exact ⟨fun ⟨c, h⟩ => ⟨c, (lk_some_iff hi.dst).2 h⟩, fun ⟨c, h⟩ => ⟨c, (lk_some_iff hi.dst).1 h⟩⟩
  have hST : ∀ s t c, ((s, t), c) ∈ m.st → ST m s t = c := by
    intro s t c h; unfold ST; rw [(lk_some_iff hi.dst).2 h]; rfl
  have bST : ∀ s t c, Op.incr s t c ∈ os → eps ≤ ST m s t := by
    intro s t c h
    have := (hc s t).2.2
    rw [cSrcTrg_eq hi] at this
    simp only at this; rw [this]
    exact (total_nonneg _ os hpos).2 s t c h (by simp)
  have bS : ∀ s t c, Op.incr s t c ∈ os → eps ≤ S m s := by
    intro s t c h
    have := (hc s t).1
    rw [cSrc_eq] at this; rw [this]
    exact (total_nonneg _ os hpos).2 s t c h (by simp)
  have bT : ∀ s t c, Op.incr s t c ∈ os → eps ≤ T m t := by
    intro s t c h
    have := (hc s t).2.1
    rw [cTrg_eq] at this; rw [this]
    exact (total_nonneg _ os hpos).2 s t c h (by simp)
  have hs1 : ∀ s, (getEntriesForSource m s).1 = _ := fun s => entriesForSource_keys s (by
    intro e hem _
    obtain ⟨c, hcm⟩ := (hmem e.1.1 e.1.2).1 ⟨e.2, hem⟩
    refine ⟨rabs_ge (bT _ _ _ hcm), ?_⟩
    rw [← hST e.1.1 e.1.2 e.2 hem]
    exact rabs_ge (bST _ _ _ hcm))
  have hs2 : ∀ t, targetEntries m t = _ := fun t => targetEntries_eq t (by
    intro e hem _
    obtain ⟨c, hcm⟩ := (hmem e.1.1 e.1.2).1 ⟨e.2, hem⟩
    refine ⟨rabs_ge (bS _ _ _ hcm), ?_⟩
    rw [← hST e.1.1 e.1.2 e.2 hem]
    exact rabs_ge (bST _ _ _ hcm))
  have nd1 : ∀ s, ((getEntriesForSource m s).1.map Prod.fst).Nodup := by
    intro s
    rw [hs1, List.map_map]
    have : (m.st.filter (fun e => e.1.1 = s)).Pairwise (fun a b => a.1 ≠ b.1) :=
      (List.pairwise_map.1 hi.dst).filter _
    rw [List.Nodup, List.pairwise_map]
    refine List.Pairwise.imp_of_mem ?_ this
    intro a b ha hb hab hc
    rw [List.mem_filter] at ha hb
    have h1 : a.1.1 = s := by simpa using ha.2
    have h2 : b.1.1 = s := by simpa using hb.2
    exact hab (Prod.ext (h1.trans h2.symm) hc)
  have mk1 : ∀ s t, t ∈ (getEntriesForSource m s).1.map Prod.fst ↔ ∃ c, Op.incr s t c ∈ os := by
    intro s t
    rw [← hmem, hs1, List.map_map, List.mem_map]
    constructor
    · rintro ⟨e, he, rfl⟩
      rw [List.mem_filter] at he
      have : e.1.1 = s := by simpa using he.2
      subst this
      exact ⟨e.2, he.1⟩
    · rintro ⟨c, h⟩
      exact ⟨((s, t), c), List.mem_filter.2 ⟨h, by simp⟩, rfl⟩
  have nd2 : ∀ t, ((targetEntries m t).map Prod.fst).Nodup := by
    intro t
    rw [hs2, List.map_map]
    have : (m.st.filter (fun e => e.1.2 = t)).Pairwise (fun a b => a.1 ≠ b.1) :=
      (List.pairwise_map.1 hi.dst).filter _
    rw [List.Nodup, List.pairwise_map]
    refine List.Pairwise.imp_of_mem ?_ this
    intro a b ha hb hab hc
    rw [List.mem_filter] at ha hb
    have h1 : a.1.2 = t := by simpa using ha.2
    have h2 : b.1.2 = t := by simpa using hb.2
    exact hab (Prod.ext hc (h1.trans h2.symm))
  have mk2 : ∀ t s, s ∈ (targetEntries m t).map Prod.fst ↔ ∃ c, Op.incr s t c ∈ os := by
    intro t s
    rw [← hmem, hs2, List.map_map, List.mem_map]
    constructor
    · rintro ⟨e, he, rfl⟩
      rw [List.mem_filter] at he
      have : e.1.2 = t := by simpa using he.2
      subst this
      exact ⟨e.2, he.1⟩
    · rintro ⟨c, h⟩
      exact ⟨((s, t), c), List.mem_filter.2 ⟨h, by simp⟩, rfl⟩
  refine ⟨nd1, mk1, ?_, ?_, ?_⟩
  · intro s e hem
    rw [hs1, List.mem_map] at hem
    obtain ⟨x, hx, rfl⟩ := hem
    rw [List.mem_filter] at hx
    have : x.1.1 = s := by simpa using hx.2
    subst this
    rw [cSrcTrg_eq hi, cTrg_eq]
    simp only []
    rw [hST x.1.1 x.1.2 x.2 hx.1]
  · rintro s ⟨t, c, ht⟩
    have hS := bS s t c ht
    have hsum := hm1 s _ (nd1 s) (fun t c h => (mk1 s t).2 ⟨c, h⟩)
    rw [cSrc_eq, List.map_map] at hsum
    have : (getEntriesForSource m s).1.map (fun e => (pTrgGivenSrc m s e.1).1)
        = (getEntriesForSource m s).1.map (fun e => (cSrcTrg m s e.1).1 / S m s) := by
      apply List.map_congr_left
      intro e hem
      obtain ⟨d, hd⟩ := (mk1 s e.1).1 (List.mem_map_of_mem hem)
      have := bST s e.1 d hd
      rw [pTrg_eq hi, cSrcTrg_eq hi]
      simp only []
      rw [if_pos ⟨by grind, by grind⟩]
    rw [this, sum_div]
    rw [show (getEntriesForSource m s).1.map (fun e => (cSrcTrg m s e.1).1)
      = (getEntriesForSource m s).1.map ((fun t => (cSrcTrg m s t).1) ∘ Prod.fst) from rfl, ← hsum]
    grind
  · intro t r m' hg
    have hne : m.src ≠ [] := by
      intro hc; unfold getEntriesForTarget at hg; rw [hc] at hg; simp [minKey] at hg
    rw [entriesForTarget_eq hi hne] at hg
    simp only [Option.some.injEq, Prod.mk.injEq] at hg
    obtain ⟨rfl, _⟩ := hg
    refine ⟨nd2 t, mk2 t, ?_, ?_⟩
    · intro e hem
      simp only at hem
      rw [hs2, List.mem_map] at hem
      obtain ⟨x, hx, rfl⟩ := hem
      rw [List.mem_filter] at hx
      have : x.1.2 = t := by simpa using hx.2
      subst this
      rw [cSrcTrg_eq hi, cSrc_eq]
      simp only []
      rw [hST x.1.1 x.1.2 x.2 hx.1]
    · rintro ⟨s, c, ht⟩
      have hT := bT s t c ht
      have hsum := hm2 t _ (nd2 t) (fun s c h => (mk2 t s).2 ⟨c, h⟩)
      rw [cTrg_eq, List.map_map] at hsum
      have : (targetEntries m t).map (fun e => (pSrcGivenTrg m e.1 t).1)
          = (targetEntries m t).map (fun e => (cSrcTrg m e.1 t).1 / T m t) := by
        apply List.map_congr_left
        intro e hem
        obtain ⟨d, hd⟩ := (mk2 t e.1).1 (List.mem_map_of_mem hem)
        have := bST e.1 t d hd
        rw [pSrc_eq hi, cSrcTrg_eq hi]
        simp only []
        rw [if_pos ⟨by grind, by grind⟩]
      simp only []
      rw [this, sum_div]
      rw [show (targetEntries m t).map (fun e => (cSrcTrg m e.1 t).1)
        = (targetEntries m t).map ((fun s => (cSrcTrg m s t).1) ∘ Prod.fst) from rfl, ← hsum]
      grind

/-- A history that satisfies the hypotheses: two targets for one source, with queries in between. -/
def sample : List Op := [.incr [1] [2] 1, .cSrcTrg [1] [9], .incr [1] [3] (1/2), .entriesForTarget [3], .incr [1, 1] [2] 2]

example : NoAdd sample ∧ (∀ s t c, Op.incr s t c ∈ sample → eps ≤ c) ∧ ∃ m, run empty sample = some m := by
  refine ⟨?_, ?_, ?_⟩
  · intro s t c d h; simp [sample] at h
  · intro s t c h
    simp only [sample, List.mem_cons, Op.incr.injEq, List.not_mem_nil, or_false, reduceCtorEq, false_or] at h
    rcases h with ⟨_, _, rfl⟩ | ⟨_, _, rfl⟩ | ⟨_, _, rfl⟩ <;> decide +kernel
  · exact Option.isSome_iff_exists.1 (by decide +kernel)

/-! ### C26: table entries -/

/-- **C26 (partial).** `addTableEntry(s,t,(cs,cst))` never fails; afterwards `c(s)=cs`, `c(s,t)=cst`, `c(t)` has grown by
`cst`, and all other counts are unchanged. Missing: idempotence (false for `c(t)`, see below). -/
theorem C26_partial (os : List Op) (m : Table) (hr : run empty os = some m) (s t : Phrase) (cs cst : Rat) :
    ∃ m', addTableEntry m s t cs cst = some m' ∧
      (∀ s', cSrc m' s' = if s' = s then cs else cSrc m s') ∧
      (∀ t', cTrg m' t' = if t' = t then cTrg m t + cst else cTrg m t') ∧
      (∀ s' t', (cSrcTrg m' s' t').1 = if s' = s ∧ t' = t then cst else (cSrcTrg m s' t').1) := by
  have hi := run_inv os inv_empty hr
  refine ⟨_, add_eq m s t cs cst, ?_, ?_, ?_⟩
  · intro s'; rw [cSrc_eq, record_S]; rfl
  · intro t'; rw [cTrg_eq, record_T]; rfl
  · intro s' t'
    rw [cSrcTrg_eq (inv_record hi ..), cSrcTrg_eq hi]
    simp only []
    rw [record_ST]

/-- Full C26: in addition, adding the same entry again changes no count. -/
def C26_full : Prop := ∀ (os : List Op) (m : Table), run empty os = some m → ∀ (s t : Phrase) (cs cst : Rat) (m1 m2 : Table),
  addTableEntry m s t cs cst = some m1 → addTableEntry m1 s t cs cst = some m2 →
  (∀ s', cSrc m2 s' = cSrc m1 s') ∧ (∀ t', cTrg m2 t' = cTrg m1 t') ∧
  (∀ s' t', (cSrcTrg m2 s' t').1 = (cSrcTrg m1 s' t').1)

/-- **C26 is false of the code**: re-adding an entry counts its target twice. -/
theorem C26_counterexample : ¬ C26_full := by
  intro h
  have := (h [] empty rfl [1] [2] 3 3 _ _ (add_eq ..) (add_eq ..)).2.1 [2]
  revert this
  decide +kernel

/-- What re-adding does: everything but the count of the target is as after the first call; that count grows by `cst`
again. -/
theorem C26_readd (os : List Op) (m : Table) (hr : run empty os = some m) (s t : Phrase) (cs cst : Rat) (m1 m2 : Table)
    (h1 : addTableEntry m s t cs cst = some m1) (h2 : addTableEntry m1 s t cs cst = some m2) :
    (∀ s', cSrc m2 s' = cSrc m1 s') ∧ (∀ t', cTrg m2 t' = if t' = t then cTrg m1 t + cst else cTrg m1 t') ∧
    (∀ s' t', (cSrcTrg m2 s' t').1 = (cSrcTrg m1 s' t').1) := by
  have hi := run_inv os inv_empty hr
  rw [add_eq] at h1 h2
  injection h1 with h1; injection h2 with h2; subst h1
  subst h2
  have i1 := inv_record hi s t cs (T m t + cst) cst
  refine ⟨?_, ?_, ?_⟩
  · intro s'; simp only [cSrc_eq, record_S]; split <;> rfl
  · intro t'; simp only [cTrg_eq, record_T]
  · intro s' t'
    rw [cSrcTrg_eq (inv_record i1 ..), cSrcTrg_eq i1]
    simp only [record_ST]; split <;> rfl

/-! ### C27: queries -/

/-- The observations of a table other than `size()` and the enumeration of targets. -/
structure Obs where
  cSrc : Phrase → Rat
  cTrg : Phrase → Rat
  cSrcTrg : Phrase → Phrase → Rat
  pTrgGivenSrc : Phrase → Phrase → Rat
  pSrcGivenTrg : Phrase → Phrase → Rat
  infSrcTrg : Phrase → Phrase → (Rat × Rat) × Bool
  entriesForSource : Phrase → List (Phrase × (Rat × Rat)) × Bool
  entriesForTarget : Phrase → Option (List (Phrase × (Rat × Rat)) × Bool)

/-- What queries on `m` return. -/
def obs (m : Table) : Obs where
  cSrc := PhrTable.cSrc m
  cTrg := PhrTable.cTrg m
  cSrcTrg := fun s t => (PhrTable.cSrcTrg m s t).1
  pTrgGivenSrc := fun s t => (PhrTable.pTrgGivenSrc m s t).1
  pSrcGivenTrg := fun s t => (PhrTable.pSrcGivenTrg m s t).1
  infSrcTrg := fun s t => (PhrTable.infSrcTrg m s t).1
  entriesForSource := PhrTable.getEntriesForSource m
  entriesForTarget := fun t => (PhrTable.getEntriesForTarget m t).map Prod.fst

theorem obs_same {m m' : Table} (h : Inv m) (h' : Inv m') (hs : Same m m') : obs m' = obs m := by
  obtain ⟨q1, q2, q3, q4⟩ := hs
  have eS : ∀ s, S m' s = S m s := by intro s; unfold S; rw [q1]
  have eST : ∀ s t, ST m' s t = ST m s t := by intro s t; unfold ST; rw [q2]
  unfold obs
  congr 1
  · funext s; exact eS s
  · funext t; exact q3 t
  · funext s t; rw [cSrcTrg_eq h, cSrcTrg_eq h', eST]
  · funext s t; rw [pTrg_eq h, pTrg_eq h', eST, eS]
  · funext s t; rw [pSrc_eq h, pSrc_eq h', eST, q3]
  · funext s t; rw [inf_eq h, inf_eq h', eST, eS, q2]
  · funext s
    have : trgEntry m' = trgEntry m := by
      funext e
      have := q3 e.1.2
      unfold T at this
      simp only [trgEntry, this]
    simp only [getEntriesForSource, q2, this]
  · funext t
    by_cases hne : m.src = []
    · simp [getEntriesForTarget, q1, hne, minKey]
    · rw [entriesForTarget_eq h hne, entriesForTarget_eq h' (by rw [q1]; exact hne)]
      have : srcEntry m' = srcEntry m := by funext e; simp only [srcEntry, q1]
      simp only [Option.map_some, targetEntries, q2, this]

/-- **C27 (partial).** On any table obtained by public calls, any query sequence leaves the results of all later queries
as they were, `size()` excepted (see below). -/
theorem C27_partial (os : List Op) (m : Table) (hr : run empty os = some m) : ∀ (qs : List Op) (m' : Table),
    (∀ q ∈ qs, q.query) → run m qs = some m' → obs m' = obs m := by
  have hi := run_inv os inv_empty hr
  have : ∀ (qs : List Op) (m m' : Table), Inv m → (∀ q ∈ qs, q.query) → run m qs = some m' → obs m' = obs m := by
    intro qs
    induction qs with
    | nil => intro m m' _ _ h; rw [run] at h; injection h with h; rw [h]
    | cons q qs ih =>
      intro m m' hi hq h
      rw [run] at h
      cases hs : step m q with
      | none => rw [hs] at h; cases h
      | some p =>
        rw [hs] at h
        obtain ⟨h1, h2⟩ := step_query hi q (hq q (List.mem_cons_self ..)) (show step m q = some (p.1, p.2) from hs)
        rw [ih p.2 m' h1 (fun q hm => hq q (List.mem_cons_of_mem _ hm)) h]
        exact obs_same hi h1 h2
  intro qs m' hq h
  exact this qs m m' hi hq h

/-- Full C27: the size does not change either. -/
def C27_full : Prop := ∀ (os : List Op) (m : Table), run empty os = some m → ∀ (q : Op) (r : Res) (m' : Table),
  q.query → step m q = some (r, m') → size m' = size m

/-- **C27 is false of the code**: asking for the count of an unknown pair makes the table grow. -/
theorem C27_counterexample : ¬ C27_full := by
  intro h
  have := h [] empty rfl (.cSrcTrg [1] [2]) _ _ rfl rfl
  revert this
  decide +kernel

/-- How much a query can make the table grow: at most one element. -/
theorem C27_size (os : List Op) (m : Table) (hr : run empty os = some m) (q : Op) (hq : q.query) (r : Res) (m' : Table)
    (h : step m q = some (r, m')) : size m ≤ size m' ∧ size m' ≤ size m + 1 := by
  have hi := run_inv os inv_empty hr
  have ht : ∀ t, size m ≤ size (touch m t) ∧ size (touch m t) ≤ size m + 1 := by
    intro t
    unfold touch addTrgInfo size
    split
    · omega
    · next hn => rw [length_put, if_neg hn]; simp only []; omega
  cases q with
  | incr s t c => cases hq
  | add s t c d => cases hq
  | cSrcTrg s t => simp only [step, cSrcTrg_eq hi, Option.some.injEq, Prod.mk.injEq] at h; rw [← h.2]; exact ht t
  | pTrgGivenSrc s t => simp only [step, pTrg_eq hi, Option.some.injEq, Prod.mk.injEq] at h; rw [← h.2]; exact ht t
  | pSrcGivenTrg s t => simp only [step, pSrc_eq hi, Option.some.injEq, Prod.mk.injEq] at h; rw [← h.2]; exact ht t
  | infSrcTrg s t =>
    simp only [step, inf_eq hi, Option.some.injEq, Prod.mk.injEq] at h
    rw [← h.2]
    split
    · exact ht t
    · omega
  | entriesForTarget t =>
    simp only [step] at h
    by_cases hne : m.src = []
    · unfold getEntriesForTarget at h; rw [hne] at h; simp [minKey] at h
    · rw [entriesForTarget_eq hi hne] at h
      simp only [Option.map_some, Option.some.injEq, Prod.mk.injEq] at h
      rw [← h.2]; exact ht t
  | _ => simp only [step, Option.some.injEq, Prod.mk.injEq] at h; rw [← h.2]; omega

/-- No public call has undefined behaviour, except `getEntriesForTarget` on a table without source phrases. -/
theorem C27_defined (os : List Op) (m : Table) (hr : run empty os = some m) (o : Op) :
    step m o = none ↔ (∃ t, o = .entriesForTarget t) ∧ m.src = [] := by
  have hi := run_inv os inv_empty hr
  cases o with
  | incr s t c => simp [step, incr_eq hi]
  | add s t c d => simp [step, add_eq]
  | entriesForTarget t =>
    by_cases hne : m.src = []
    · simp [step, getEntriesForTarget, hne, minKey]
    · simp [step, entriesForTarget_eq hi hne, hne]
  | _ => simp [step]

/-- The history records the pair by an increment or a table entry. -/
def Recorded (os : List Op) (s t : Phrase) : Prop := (∃ c, Op.incr s t c ∈ os) ∨ ∃ c d, Op.add s t c d ∈ os

theorem recorded_cons_query {o : Op} (ho : o.query) (os : List Op) (s t : Phrase) :
    Recorded (o :: os) s t ↔ Recorded os s t := by
  unfold Recorded
  cases o with
  | incr => cases ho
  | add => cases ho
  | _ => simp

theorem run_recorded : ∀ (os : List Op) {m m' : Table}, Inv m → run m os = some m' → ∀ s t,
    (lk m'.st (s, t)).isSome ↔ (lk m.st (s, t)).isSome ∨ Recorded os s t
  | [], m, m', h, hr, s, t => by
    rw [run] at hr; injection hr with hr; subst hr
    simp [Recorded]
  | o :: os, m, m', h, hr, s, t => by
    rw [run] at hr
    cases hs : step m o with
    | none => rw [hs] at hr; cases hr
    | some p =>
      rw [hs] at hr
      have hs' : step m o = some (p.1, p.2) := hs
      have hi := step_inv h o hs'
      rw [run_recorded os hi hr s t]
      by_cases ho : o.query
      · obtain ⟨_, q1, q2, q3, _⟩ := step_query h o ho hs'
        rw [q2, recorded_cons_query ho]
      · cases o with
        | incr a b c =>
          simp only [step, incr_eq h, Option.map_some, Option.some.injEq] at hs'
          have hp : p.2.st = put m.st (a, b) (ST m a b + c) := by
            rw [Prod.mk.injEq] at hs'; rw [← hs'.2]; simp only [record, touch_st]
          rw [hp]
          simp only [lk_put, Recorded, Prod.mk.injEq, List.mem_cons, Op.incr.injEq, reduceCtorEq, false_or]
          by_cases he : s = a ∧ t = b
          · simp only [he, and_self, if_true, Option.isSome_some, true_and, true_or, true_iff]
            exact .inr (.inl ⟨c, .inl rfl⟩)
          · simp only [he, if_false, ← and_assoc, false_and, false_or]
        | add a b c d =>
          simp only [step, add_eq, Option.map_some, Option.some.injEq] at hs'
          have hp : p.2.st = put m.st (a, b) d := by
            rw [Prod.mk.injEq] at hs'; rw [← hs'.2]; simp only [record]
          rw [hp]
          simp only [lk_put, Recorded, Prod.mk.injEq, List.mem_cons, Op.add.injEq, reduceCtorEq, false_or]
          by_cases he : s = a ∧ t = b
          · simp only [he, and_self, if_true, Option.isSome_some, true_and, true_or, true_iff]
            exact .inr (.inr ⟨c, d, .inl ⟨rfl, rfl⟩⟩)
          · simp only [he, if_false, ← and_assoc, false_and, false_or]
        | _ => exact absurd rfl ho

/-- **C27 (values).** What the derived queries return on any table obtained by public calls, in terms of the counts: the
probabilities are the quotients of the counts when both are positive and 1e-10 otherwise; `infSrcTrg` returns both counts
and whether the pair has been recorded; the entries for a source (target) phrase are exactly the recorded pairs whose
two counts are not negligible, with these counts. -/
theorem C27_values (os : List Op) (m : Table) (hr : run empty os = some m) :
    (∀ s t, (pTrgGivenSrc m s t).1 =
      if (cSrcTrg m s t).1 > 0 ∧ cSrc m s > 0 then (cSrcTrg m s t).1 / cSrc m s else 1 / 10000000000) ∧
    (∀ s t, (pSrcGivenTrg m s t).1 =
      if (cSrcTrg m s t).1 > 0 ∧ cTrg m t > 0 then (cSrcTrg m s t).1 / cTrg m t else 1 / 10000000000) ∧
    (∀ s t, (infSrcTrg m s t).1.1 = (cSrc m s, (cSrcTrg m s t).1)) ∧
    (∀ s t, (infSrcTrg m s t).1.2 = true ↔ Recorded os s t) ∧
    (∀ s t x y, (t, (x, y)) ∈ (getEntriesForSource m s).1 ↔
      Recorded os s t ∧ x = cTrg m t ∧ y = (cSrcTrg m s t).1 ∧ ¬ rabs x < eps ∧ ¬ rabs y < eps) ∧
    (∀ s, (getEntriesForSource m s).2 = true ↔ (getEntriesForSource m s).1 ≠ []) ∧
    (∀ t r m', getEntriesForTarget m t = some (r, m') →
      (∀ s x y, (s, (x, y)) ∈ r.1 ↔
        Recorded os s t ∧ x = cSrc m s ∧ y = (cSrcTrg m s t).1 ∧ ¬ rabs x < eps ∧ ¬ rabs y < eps) ∧
      (r.2 = true ↔ r.1 ≠ [])) := by
  have hi := run_inv os inv_empty hr
  have hrec := run_recorded os inv_empty hr
  have hrec' : ∀ s t, (lk m.st (s, t)).isSome ↔ Recorded os s t := by
    intro s t; rw [hrec s t]; simp [empty, lk]
  have hmem : ∀ s t c, ((s, t), c) ∈ m.st ↔ Recorded os s t ∧ c = ST m s t := by
    intro s t c
    rw [← lk_some_iff hi.dst, ← hrec']
    unfold ST
    cases lk m.st (s, t) with
    | none => simp
    | some d => simp; exact eq_comm
  refine ⟨?_, ?_, ?_, ?_, ?_, ?_, ?_⟩
  · intro s t; rw [pTrg_eq hi, cSrcTrg_eq hi]; rfl
  · intro s t; rw [pSrc_eq hi, cSrcTrg_eq hi]; rfl
  · intro s t; rw [inf_eq hi, cSrcTrg_eq hi]; rfl
  · intro s t; rw [inf_eq hi]; exact hrec' s t
  · intro s t x y
    rw [cSrcTrg_eq hi, cTrg_eq]
    simp only [getEntriesForSource, List.mem_filterMap, List.mem_filter]
    constructor
    · rintro ⟨e, ⟨he, hs⟩, h⟩
      have hs : e.1.1 = s := by simpa using hs
      subst hs
      simp only [trgEntry] at h
      split at h
      · cases h
      · next hb =>
        simp only [Option.some.injEq, Prod.mk.injEq] at h
        obtain ⟨rfl, rfl, rfl⟩ := h
        obtain ⟨h1, h2⟩ := (hmem e.1.1 e.1.2 e.2).1 he
        refine ⟨h1, rfl, h2, ?_, ?_⟩
        · exact fun hc => hb (.inl hc)
        · exact fun hc => hb (.inr hc)
    · rintro ⟨h1, rfl, rfl, h4, h5⟩
      refine ⟨((s, t), ST m s t), ⟨(hmem s t _).2 ⟨h1, rfl⟩, by simp⟩, ?_⟩
      simp only [trgEntry]
      rw [if_neg]
      · rfl
      · rintro (hc | hc)
        · exact h4 hc
        · exact h5 hc
  · intro s; simp [getEntriesForSource]
  · intro t r m' hg
    have hne : m.src ≠ [] := by
      intro hc; unfold getEntriesForTarget at hg; rw [hc] at hg; simp [minKey] at hg
    rw [entriesForTarget_eq hi hne] at hg
    simp only [Option.some.injEq, Prod.mk.injEq] at hg
    obtain ⟨rfl, _⟩ := hg
    refine ⟨?_, by simp⟩
    intro s x y
    rw [cSrcTrg_eq hi, cSrc_eq]
    simp only [targetEntries, List.mem_filterMap, List.mem_filter]
    constructor
    · rintro ⟨e, ⟨he, hs⟩, h⟩
      have hs : e.1.2 = t := by simpa using hs
      subst hs
      simp only [srcEntry] at h
      split at h
      · cases h
      · next hb =>
        simp only [Option.some.injEq, Prod.mk.injEq] at h
        obtain ⟨rfl, rfl, rfl⟩ := h
        obtain ⟨h1, h2⟩ := (hmem e.1.1 e.1.2 e.2).1 he
        refine ⟨h1, rfl, h2, ?_, ?_⟩
        · exact fun hc => hb (.inl hc)
        · exact fun hc => hb (.inr hc)
    · rintro ⟨h1, rfl, rfl, h4, h5⟩
      refine ⟨((s, t), ST m s t), ⟨(hmem s t _).2 ⟨h1, rfl⟩, by simp⟩, ?_⟩
      simp only [srcEntry]
      rw [if_neg]
      · rfl
      · rintro (hc | hc)
        · exact h4 hc
        · exact h5 hc

end Thot.PhrTable
