import Verif.Ibm.Train
/-!
# C127, C128: trained parameters are probability distributions
-/
namespace Thot.Ibm

open Thot Thot.Sum Thot.Hmm

/-! ### Specification -/

/-- The lengths accepted for training. -/
def Usable (pr : TPair) : Prop := 1 ≤ pr.src.length ∧ pr.src.length ≤ 1024 ∧ 1 ≤ pr.trg.length ∧ pr.trg.length ≤ 1024

/-- `p` are the parameters of a model trained on the pairs `tr`: either incrementally from an empty model, by any sequence
of calls with any ranges, or by one iteration of batch training on a range, whatever the model contained. -/
def Trained (k : Kind) (pairs : Nat → TPair) (p : Pars) (tr : Nat → Prop) : Prop :=
  (∃ ranges : List (Nat × Nat), p = (ranges.foldl (trainRange k pairs) TState.empty).pars ∧
    tr = fun n => ∃ r ∈ ranges, r.1 ≤ n ∧ n ≤ r.2) ∨
  (∃ (p0 : Pars) (lo hi : Nat), p = batch k pairs lo hi p0 ∧ tr = fun n => lo ≤ n ∧ n ≤ hi)

/-! ### Lemmas -/

variable {γ G X : Type} [DecidableEq γ] [DecidableEq G] [DecidableEq X]

/-- The tables of a model trained on the pairs `tr`. -/
structure Good (corpus : Nat → Option (Hmm.Sent γ G X)) (tr : Nat → Prop) (t : Tables G X) : Prop where
  ok : TabOk t
  nonneg : ∀ u, 0 ≤ numAt t u
  pos : ∀ u, 0 < numAt t u ↔ ∃ n snt, tr n ∧ corpus n = some snt ∧ u ∈ snt.cells.map Prod.snd

theorem good_batch {corpus : Nat → Option (Hmm.Sent γ G X)} (hc : CellsOk corpus)
    (hw : ∀ n snt, corpus n = some snt → 0 < snt.weight) (st : Est γ G X) (lo hi : Nat) (new : Nat → γ → Rat)
    (hn : ∀ n c, 0 < new n c) : Good corpus (fun n => lo ≤ n ∧ n ≤ hi) (batchTrain corpus st lo hi new).tab := by
  obtain ⟨h1, h2⟩ := batch_spec corpus hc st lo hi new
  have hnn : ∀ u, ∀ n, 0 ≤ newC corpus new u n := by
    intro u n
    unfold newC
    cases hcn : corpus n with
    | none => exact Rat.le_refl
    | some snt => exact contrib_nonneg (hw n snt hcn) (hn n) u
  refine ⟨h1, fun u => ?_, fun u => ⟨fun h => ?_, ?_⟩⟩
  · rw [h2]; exact sumBy_nonneg fun n _ => hnn u n
  · rw [h2] at h
    obtain ⟨n, hn1, hn2⟩ : ∃ n ∈ List.range' lo (hi + 1 - lo), newC corpus new u n ≠ 0 := by
      apply Classical.byContradiction
      intro hno
      have := sumBy_zero (f := newC corpus new u) (l := List.range' lo (hi + 1 - lo))
        (fun n hn => Classical.byContradiction fun hz => hno ⟨n, hn, hz⟩)
      rw [this] at h
      exact absurd h (by decide)
    rw [List.mem_range'_1] at hn1
    unfold newC at hn2
    cases hcn : corpus n with
    | none => rw [hcn] at hn2; exact absurd rfl hn2
    | some snt => rw [hcn] at hn2; exact ⟨n, snt, ⟨by omega, by omega⟩, hcn, contrib_ne_zero hn2⟩
  · rintro ⟨n, snt, ⟨hlo, hhi⟩, hcn, hu⟩
    rw [h2]
    apply sumBy_pos (a := n) (fun m _ => hnn u m) (by rw [List.mem_range'_1]; omega)
    unfold newC
    rw [hcn]
    exact contrib_pos (hw n snt hcn) (hn n) hu

theorem lastVals_pos (h : List (Call γ)) (hp : ∀ c ∈ h, ∀ n x, 0 < c.new n x) (n : Nat) :
    (∀ v, lastVals h n = some v → ∀ x, 0 < v x) ∧ ((lastVals h n).isSome ↔ ∃ c ∈ h, c.lo ≤ n ∧ n ≤ c.hi) := by
  induction h with
  | nil =>
    refine ⟨fun v hv => (by cases hv), ⟨fun hs => (by cases hs), fun hs => ?_⟩⟩
    obtain ⟨c, hc, _⟩ := hs
    cases hc
  | cons c h ih =>
    obtain ⟨i1, i2⟩ := ih (fun d hd => hp d (List.mem_cons_of_mem _ hd))
    unfold lastVals
    cases hl : lastVals h n with
    | some v =>
      dsimp only
      refine ⟨fun v' hv => ?_, ⟨fun _ => ?_, fun _ => rfl⟩⟩
      · cases hv; exact i1 v hl
      · obtain ⟨d, hd, hr⟩ := i2.1 (by rw [hl]; rfl)
        exact ⟨d, List.mem_cons_of_mem _ hd, hr⟩
    | none =>
      dsimp only
      by_cases hr : c.lo ≤ n ∧ n ≤ c.hi
      · rw [if_pos hr]
        refine ⟨fun v hv => ?_, ⟨fun _ => ⟨c, List.mem_cons_self, hr⟩, fun _ => rfl⟩⟩
        cases hv
        exact hp c List.mem_cons_self n
      · rw [if_neg hr]
        refine ⟨fun v hv => (by cases hv), ⟨fun hs => (by cases hs), fun hs => ?_⟩⟩
        obtain ⟨d, hd, hdr⟩ := hs
        rcases List.mem_cons.1 hd with rfl | hd
        · exact absurd hdr hr
        · have := i2.2 ⟨d, hd, hdr⟩
          rw [hl] at this
          exact this

theorem good_run {corpus : Nat → Option (Hmm.Sent γ G X)} (hc : CellsOk corpus)
    (hw : ∀ n snt, corpus n = some snt → 0 < snt.weight) (h : List (Call γ)) (hp : ∀ c ∈ h, ∀ n x, 0 < c.new n x) :
    Good corpus (fun n => ∃ c ∈ h, c.lo ≤ n ∧ n ≤ c.hi) (runCalls corpus none h).tab := by
  have i := inv_run hc h
  obtain ⟨N, hN⟩ : ∃ N, ∀ d ∈ h, d.hi < N := by
    clear i hp
    induction h with
    | nil => exact ⟨0, fun d hd => by cases hd⟩
    | cons d l ih =>
      obtain ⟨N, hN⟩ := ih
      refine ⟨N + d.hi + 1, fun e he => ?_⟩
      rcases List.mem_cons.1 he with rfl | he
      · omega
      · have := hN e he; omega
  have hnum : ∀ u, numAt (runCalls corpus none h).tab u = sumBy (contribOf corpus h u) (List.range N) := fun u => i.num N hN u
  have hnn : ∀ u n, 0 ≤ contribOf corpus h u n := by
    intro u n
    unfold contribOf
    cases hcn : corpus n with
    | none => exact Rat.le_refl
    | some snt =>
      cases hl : lastVals h n with
      | none => exact Rat.le_refl
      | some v => exact contrib_nonneg (hw n snt hcn) ((lastVals_pos h hp n).1 v hl) u
  refine ⟨i.tab, fun u => ?_, fun u => ⟨fun hu => ?_, ?_⟩⟩
  · rw [hnum]; exact sumBy_nonneg fun n _ => hnn u n
  · rw [hnum] at hu
    obtain ⟨n, hn1, hn2⟩ : ∃ n ∈ List.range N, contribOf corpus h u n ≠ 0 := by
      apply Classical.byContradiction
      intro hno
      have := sumBy_zero (f := contribOf corpus h u) (l := List.range N)
        (fun n hn => Classical.byContradiction fun hz => hno ⟨n, hn, hz⟩)
      rw [this] at hu
      exact absurd hu (by decide)
    unfold contribOf at hn2
    cases hcn : corpus n with
    | none => rw [hcn] at hn2; exact absurd rfl hn2
    | some snt =>
      cases hl : lastVals h n with
      | none => rw [hcn, hl] at hn2; exact absurd rfl hn2
      | some v =>
        rw [hcn, hl] at hn2
        exact ⟨n, snt, (lastVals_pos h hp n).2.1 (by rw [hl]; rfl), hcn, contrib_ne_zero hn2⟩
  · rintro ⟨n, snt, htr, hcn, hu⟩
    rw [hnum]
    obtain ⟨v, hv⟩ := Option.isSome_iff_exists.1 ((lastVals_pos h hp n).2.2 htr)
    obtain ⟨c, hcm, hcr⟩ := htr
    have hlt := hN c hcm
    apply sumBy_pos (a := n) (fun m _ => hnn u m) (by rw [List.mem_range]; omega)
    unfold contribOf
    rw [hcn, hv]
    exact contrib_pos (hw n snt hcn) ((lastVals_pos h hp n).1 v hv) hu

theorem trainRange_calls (k : Kind) (pairs : Nat → TPair) (hw : ∀ n, 0 < (pairs n).w) (ranges : List (Nat × Nat)) :
    ∃ h : List (Call (Nat × Nat)), h.map (fun c => (c.lo, c.hi)) = ranges ∧ (∀ c ∈ h, ∀ n x, 0 < c.new n x) ∧
      (ranges.foldl (trainRange k pairs) TState.empty).lex = runCalls (lexCorpus pairs) none h ∧
      (ranges.foldl (trainRange k pairs) TState.empty).al = runCalls (alCorpus k pairs) none h := by
  have gen : ∀ (ranges : List (Nat × Nat)) (s : TState) (h0 : List (Call (Nat × Nat))),
      (∀ c ∈ h0, ∀ n x, 0 < c.new n x) → s.lex = runCalls (lexCorpus pairs) none h0 →
      s.al = runCalls (alCorpus k pairs) none h0 →
      ∃ h : List (Call (Nat × Nat)), h.map (fun c => (c.lo, c.hi)) = h0.map (fun c => (c.lo, c.hi)) ++ ranges ∧
      (∀ c ∈ h, ∀ n x, 0 < c.new n x) ∧
      (ranges.foldl (trainRange k pairs) s).lex = runCalls (lexCorpus pairs) none h ∧
      (ranges.foldl (trainRange k pairs) s).al = runCalls (alCorpus k pairs) none h := by
    intro ranges
    induction ranges with
    | nil => intro s h0 hp h1 h2; exact ⟨h0, by simp, hp, h1, h2⟩
    | cons r ranges ih =>
      intro s h0 hp h1 h2
      obtain ⟨h, e1, e2, e3, e4⟩ := ih (trainRange k pairs s r) (h0 ++ [⟨r.1, r.2, newVals k s.pars pairs⟩])
        (by
          intro c hc
          rcases List.mem_append.1 hc with hc | hc
          · exact hp c hc
          · rw [List.mem_singleton] at hc
            subst hc
            exact fun n x => newVals_pos k s.pars pairs hw n x)
        (by unfold trainRange runCalls; rw [List.foldl_append]; dsimp only [List.foldl_cons, List.foldl_nil]; rw [h1]; rfl)
        (by unfold trainRange runCalls; rw [List.foldl_append]; dsimp only [List.foldl_cons, List.foldl_nil]; rw [h2]; rfl)
      exact ⟨h, by rw [e1]; simp, e2, e3, e4⟩
  obtain ⟨h, e⟩ := gen ranges TState.empty [] (fun c hc => by cases hc) rfl rfl
  exact ⟨h, by simpa using e⟩

theorem lexCorpus_weight (pairs : Nat → TPair) (hw : ∀ n, 0 < (pairs n).w) (n : Nat) (snt) (h : lexCorpus pairs n = some snt) :
    0 < snt.weight := by
  unfold lexCorpus at h
  split at h
  · cases h; exact hw n
  · cases h

theorem alCorpus_weight (k : Kind) (pairs : Nat → TPair) (hw : ∀ n, 0 < (pairs n).w) (n : Nat) (snt)
    (h : alCorpus k pairs n = some snt) : 0 < snt.weight := by
  unfold alCorpus at h
  split at h
  · cases h; exact hw n
  · cases h

theorem trained_good {k : Kind} {pairs : Nat → TPair} (hw : ∀ n, 0 < (pairs n).w) {p : Pars} {tr : Nat → Prop}
    (h : Trained k pairs p tr) : Good (lexCorpus pairs) tr p.lex ∧ Good (alCorpus k pairs) tr p.al := by
  rcases h with ⟨ranges, rfl, rfl⟩ | ⟨p0, lo, hi, rfl, rfl⟩
  · obtain ⟨h, e1, e2, e3, e4⟩ := trainRange_calls k pairs hw ranges
    have etr : (fun n => ∃ r ∈ ranges, r.1 ≤ n ∧ n ≤ r.2) = fun n => ∃ c ∈ h, c.lo ≤ n ∧ n ≤ c.hi := by
      funext n
      rw [← e1]
      apply propext
      constructor
      · rintro ⟨r, hr, hh⟩
        obtain ⟨c, hc, rfl⟩ := List.mem_map.1 hr
        exact ⟨c, hc, hh⟩
      · rintro ⟨c, hc, hh⟩
        exact ⟨(c.lo, c.hi), List.mem_map.2 ⟨c, hc, rfl⟩, hh⟩
    rw [etr]
    unfold TState.pars
    rw [e3, e4]
    exact ⟨good_run (lexCorpus_ok pairs) (lexCorpus_weight pairs hw) h e2,
      good_run (alCorpus_ok k pairs) (alCorpus_weight k pairs hw) h e2⟩
  · exact ⟨good_batch (lexCorpus_ok pairs) (lexCorpus_weight pairs hw) ⟨Mem.empty none, p0.lex⟩ lo hi _ (fun n c => newVals_pos k p0 pairs hw n c),
      good_batch (alCorpus_ok k pairs) (alCorpus_weight k pairs hw) ⟨Mem.empty none, p0.al⟩ lo hi _ (fun n c => newVals_pos k p0 pairs hw n c)⟩

theorem lenOk_iff (pr : TPair) : (lenOk pr.src && lenOk pr.trg) = true ↔ Usable pr := by
  unfold lenOk Usable
  cases pr.src <;> cases pr.trg <;> simp

theorem mem_getD_iff {l : List Nat} {x : Nat} : x ∈ l ↔ ∃ i, i < l.length ∧ l.getD i 0 = x := by
  rw [List.mem_iff_getElem]
  constructor
  · rintro ⟨i, hi, rfl⟩
    exact ⟨i, hi, by rw [List.getD_eq_getElem?_getD, List.getElem?_eq_getElem hi]; rfl⟩
  · rintro ⟨i, hi, rfl⟩
    exact ⟨i, hi, by rw [List.getD_eq_getElem?_getD, List.getElem?_eq_getElem hi]; rfl⟩

/-- The parameters of a pair. -/
theorem lex_key (pairs : Nat → TPair) (n : Nat) (u : Nat × Nat) :
    (∃ snt, lexCorpus pairs n = some snt ∧ u ∈ snt.cells.map Prod.snd) ↔
      Usable (pairs n) ∧ u.1 ∈ 0 :: (pairs n).src ∧ u.2 ∈ (pairs n).trg := by
  unfold lexCorpus
  constructor
  · rintro ⟨snt, hs, hu⟩
    split at hs
    · rename_i hok
      cases hs
      obtain ⟨c, hc, rfl⟩ := List.mem_map.1 hu
      unfold lexCells1 at hc
      rw [List.mem_flatMap] at hc
      obtain ⟨j, hj, hc⟩ := hc
      rw [List.mem_range'_1] at hj
      obtain ⟨i, hi, rfl⟩ := List.mem_map.1 hc
      rw [List.mem_range] at hi
      exact ⟨(lenOk_iff _).1 hok, mem_getD_iff.2 ⟨i, hi, rfl⟩, mem_getD_iff.2 ⟨j - 1, by omega, rfl⟩⟩
    · cases hs
  · rintro ⟨hok, hs, ht⟩
    rw [if_pos ((lenOk_iff _).2 hok)]
    refine ⟨_, rfl, ?_⟩
    obtain ⟨i, hi, e1⟩ := mem_getD_iff.1 hs
    obtain ⟨j, hj, e2⟩ := mem_getD_iff.1 ht
    unfold lexCells1
    rw [List.mem_map]
    refine ⟨((j + 1, i), u), ?_, rfl⟩
    rw [List.mem_flatMap]
    refine ⟨j + 1, by rw [List.mem_range'_1]; omega, List.mem_map.2 ⟨i, List.mem_range.2 hi, ?_⟩⟩
    rw [show (j + 1 - 1) = j by omega, e2, show (addNull (pairs n).src).getD i 0 = u.1 from e1]

theorem al_key (pairs : Nat → TPair) (n : Nat) (u : ASrc × Nat) :
    (∃ snt, alCorpus .ibm2 pairs n = some snt ∧ u ∈ snt.cells.map Prod.snd) ↔
      Usable (pairs n) ∧ 1 ≤ u.1.1 ∧ u.1.1 ≤ (pairs n).trg.length ∧ u.1.2.1 = (pairs n).src.length ∧
        u.1.2.2 = (pairs n).trg.length ∧ u.2 ≤ (pairs n).src.length := by
  unfold alCorpus
  have hl : (addNull (pairs n).src).length = (pairs n).src.length + 1 := by simp [addNull]
  constructor
  · rintro ⟨snt, hs, hu⟩
    split at hs
    · rename_i hok
      cases hs
      obtain ⟨c, hc, rfl⟩ := List.mem_map.1 hu
      unfold alCells at hc
      dsimp only at hc
      rw [List.mem_flatMap] at hc
      obtain ⟨j, hj, hc⟩ := hc
      rw [List.mem_range'_1] at hj
      obtain ⟨i, hi, rfl⟩ := List.mem_map.1 hc
      rw [List.mem_range, hl] at hi
      refine ⟨(lenOk_iff _).1 hok, ?_, ?_, ?_, ?_, ?_⟩ <;> dsimp only <;> omega
    · cases hs
  · rintro ⟨hok, h1, h2, h3, h4, h5⟩
    rw [if_pos ((lenOk_iff _).2 hok)]
    refine ⟨_, rfl, ?_⟩
    unfold alCells
    dsimp only
    rw [List.mem_map]
    refine ⟨((u.1.1, u.2), u), ?_, rfl⟩
    rw [List.mem_flatMap]
    refine ⟨u.1.1, by rw [List.mem_range'_1]; omega, List.mem_map.2 ⟨u.2, List.mem_range.2 (by omega), ?_⟩⟩
    obtain ⟨⟨a, b, c⟩, d⟩ := u
    dsimp only at h3 h4 ⊢
    rw [hl, h3, h4]
    rfl

/-! ### C127 -/

/-- C127: after training with positive weights, the lexical parameters of every source word of a trained pair (and of the
null word) are a probability distribution over the target words of the trained pairs. -/
theorem C127_lex {k : Kind} {pairs : Nat → TPair} (hw : ∀ n, 0 < (pairs n).w) {p : Pars} {tr : Nat → Prop}
    (h : Trained k pairs p tr) (n : Nat) (hn : tr n) (hu : Usable (pairs n)) (s : Nat) (hs : s ∈ 0 :: (pairs n).src)
    (T : List Nat) (hT : T.Nodup) (hc : ∀ m, tr m → Usable (pairs m) → ∀ t ∈ (pairs m).trg, t ∈ T) :
    sumBy (par p.lex s) T = 1 ∧ ∀ t, 0 ≤ par p.lex s t := by
  obtain ⟨g, _⟩ := trained_good hw h
  obtain ⟨h1, _, h3⟩ := par_sum g.ok g.nonneg s hT
  refine ⟨h1 ?_ ?_, h3⟩
  · intro t ht
    have := (g.pos (s, t)).1 (by have := g.nonneg (s, t); grind)
    obtain ⟨m, snt, hm, hsnt⟩ := this
    obtain ⟨a, b, c⟩ := (lex_key pairs m (s, t)).1 ⟨snt, hsnt⟩
    exact hc m hm a t c
  · obtain ⟨t, ht⟩ := List.exists_mem_of_length_pos (l := (pairs n).trg) (by have := hu.2.2.1; omega)
    refine ⟨t, ?_⟩
    obtain ⟨snt, hsnt⟩ := (lex_key pairs n (s, t)).2 ⟨hu, hs, ht⟩
    have := (g.pos (s, t)).2 ⟨n, snt, hn, hsnt⟩
    grind

/-- C127: the probability of a pair of words is positive exactly when the words occur together in a trained pair. -/
theorem C127_lex_pos {k : Kind} {pairs : Nat → TPair} (hw : ∀ n, 0 < (pairs n).w) {p : Pars} {tr : Nat → Prop}
    (h : Trained k pairs p tr) (s t : Nat) :
    0 < par p.lex s t ↔ ∃ n, tr n ∧ Usable (pairs n) ∧ s ∈ 0 :: (pairs n).src ∧ t ∈ (pairs n).trg := by
  obtain ⟨g, _⟩ := trained_good hw h
  have key : 0 < par p.lex s t ↔ 0 < numAt p.lex (s, t) := by
    have hd : 0 < numAt p.lex (s, t) → 0 < denSum p.lex.num s := by
      intro hp
      have hr := denSum_keys g.ok s (U := (s, t) :: (p.lex.num.map Prod.fst).filter fun u => decide (u ≠ (s, t))) (by
        rw [List.nodup_cons]
        exact ⟨fun hm => by simp at hm, (show (p.lex.num.map Prod.fst).Nodup from g.ok.dist).filter _⟩) (by
        intro u hu
        by_cases e : u = (s, t)
        · rw [e]; exact List.mem_cons_self
        · refine List.mem_cons_of_mem _ (List.mem_filter.2 ⟨?_, by simpa using e⟩)
          apply Classical.byContradiction
          intro hno
          apply hu
          unfold numAt
          rw [AMap.lk_none_iff.2 hno]; rfl)
      rw [hr]
      apply sumBy_pos (a := (s, t)) _ List.mem_cons_self
      · rw [if_pos rfl]; exact hp
      · intro u _
        split
        · exact g.nonneg u
        · exact Rat.le_refl
    rw [par_eq g.ok]
    constructor
    · intro hp
      have h0 := g.nonneg (s, t)
      by_cases hz : numAt p.lex (s, t) = 0
      · rw [hz, Rat.div_def, Rat.zero_mul] at hp
        exact absurd hp (by decide)
      · grind
    · intro hp
      rw [Rat.div_def]
      exact Rat.mul_pos hp (Rat.inv_pos.2 (hd hp))
  rw [key, g.pos]
  constructor
  · rintro ⟨n, snt, hn, hsnt⟩
    exact ⟨n, hn, (lex_key pairs n (s, t)).1 ⟨snt, hsnt⟩⟩
  · rintro ⟨n, hn, hh⟩
    obtain ⟨snt, hsnt⟩ := (lex_key pairs n (s, t)).2 hh
    exact ⟨n, snt, hn, hsnt⟩

/-- C127 (IBM 2): for every target position of a trained pair, the alignment parameters for its lengths are a probability
distribution over the source positions and the null word. -/
theorem C127_alig {pairs : Nat → TPair} (hw : ∀ n, 0 < (pairs n).w) {p : Pars} {tr : Nat → Prop}
    (h : Trained .ibm2 pairs p tr) (n : Nat) (hn : tr n) (hu : Usable (pairs n)) (j : Nat) (h1 : 1 ≤ j)
    (h2 : j ≤ (pairs n).trg.length) :
    sumBy (par p.al (j, (pairs n).src.length, (pairs n).trg.length)) (List.range ((pairs n).src.length + 1)) = 1 ∧
      ∀ i, 0 ≤ par p.al (j, (pairs n).src.length, (pairs n).trg.length) i := by
  obtain ⟨_, g⟩ := trained_good hw h
  obtain ⟨a1, _, a3⟩ := par_sum g.ok g.nonneg (j, (pairs n).src.length, (pairs n).trg.length)
    (List.nodup_range (n := (pairs n).src.length + 1))
  refine ⟨a1 ?_ ?_, a3⟩
  · intro i hi
    obtain ⟨m, snt, hm, hsnt⟩ := (g.pos ((j, (pairs n).src.length, (pairs n).trg.length), i)).1 (by
      have := g.nonneg ((j, (pairs n).src.length, (pairs n).trg.length), i); grind)
    obtain ⟨_, _, _, h3, _, h5⟩ := (al_key pairs m ((j, (pairs n).src.length, (pairs n).trg.length), i)).1 ⟨snt, hsnt⟩
    dsimp only at h3 h5
    rw [List.mem_range]; omega
  · refine ⟨0, ?_⟩
    obtain ⟨snt, hsnt⟩ := (al_key pairs n ((j, (pairs n).src.length, (pairs n).trg.length), 0)).2
      ⟨hu, h1, h2, rfl, rfl, Nat.zero_le _⟩
    have := (g.pos _).2 ⟨n, snt, hn, hsnt⟩
    grind

/-! ### C128 -/

/-- C128: the probabilities of all the target sentences of a length add up to the probability of the length, for any
source sentence whose words have lexical distributions over the target vocabulary `T` (as they have after training, C127),
and in IBM 2 when the alignment distributions of those lengths exist. -/
theorem C128_total (k : Kind) (p : Pars) (len : Rat) (src T : List Nat) (J : Nat)
    (hlex : ∀ s ∈ 0 :: src, sumBy (par p.lex s) T = 1)
    (hal : k = .ibm2 → ∀ j, 1 ≤ j → j ≤ J → sumBy (par p.al (j, src.length, J)) (List.range (src.length + 1)) = 1)
    (hk : k = .ibm1 → 1 ≤ src.length ∧ src.length ≤ 1024 ∧ 1 ≤ J ∧ J ≤ 1024) :
    sumBy (calcProb k p len src) (seqs T J) = len := by
  have e : ∀ trg ∈ seqs T J, calcProb k p len src trg = front k len src.length J *
      prodBy (fun j => sumBy (fun i => par p.lex ((0 :: src).getD i 0) (trg.getD j 0) * aFactor k p (j + 1) src.length J i)
        (List.range (src.length + 1))) (List.range J) := by
    intro trg ht
    have hl := ((mem_seqs T J trg).1 ht).1
    have ha : ∀ a ∈ aligs (src.length + 1) trg.length, jointP k p len src trg a = front k len src.length trg.length *
      prodBy (fun j => cellP k p (addNull src) trg (a.getD j 0) j) (List.range trg.length) :=
      fun a _ => joint_cells k p len src trg a
    have : calcProb k p len src trg = sumBy (jointP k p len src trg) (aligs (src.length + 1) trg.length) := by
      cases k with
      | ibm1 =>
        rw [C123_ibm1, if_pos]
        have := hk rfl
        omega
      | ibm2 => rw [C123_ibm2]
    rw [this, sumBy_congr ha, sumBy_mul, sum_aligs (fun i j => cellP k p (addNull src) trg i j), hl]
    unfold cellP addNull
    rw [hl]
    rfl
  rw [sumBy_congr e, sumBy_mul,
    sum_seqs (fun t j => sumBy (fun i => par p.lex ((0 :: src).getD i 0) t * aFactor k p (j + 1) src.length J i)
      (List.range (src.length + 1)))]
  have e2 : ∀ j ∈ List.range J, sumBy (fun t => sumBy (fun i => par p.lex ((0 :: src).getD i 0) t *
      aFactor k p (j + 1) src.length J i) (List.range (src.length + 1))) T =
      sumBy (fun i => aFactor k p (j + 1) src.length J i) (List.range (src.length + 1)) := by
    intro j _
    rw [sumBy_comm]
    apply sumBy_congr
    intro i hi
    rw [List.mem_range] at hi
    rw [sumBy_mul_right]
    have := hlex ((0 :: src).getD i 0) (mem_getD_iff.2 ⟨i, by simpa using hi, rfl⟩)
    rw [this]; grind
  rw [prodBy_congr e2]
  unfold front aFactor
  cases k with
  | ibm1 =>
    dsimp only
    have hc : sumBy (fun _ : Nat => (1 : Rat)) (List.range (src.length + 1)) = (src.length : Rat) + 1 := by
      rw [sumBy_const, List.length_range]; simp
    rw [hc, aProbIbm1_eq]
    have hz : ((src.length : Rat) + 1) ≠ 0 := by
      have h : (0 : Rat) ≤ (src.length : Rat) := Rat.natCast_nonneg
      grind
    have : prodBy (fun _ => 1 / ((src.length : Rat) + 1)) (List.range J) * prodBy (fun _ => (src.length : Rat) + 1) (List.range J)
        = 1 := by
      rw [← prodBy_mul]
      have he : ∀ x ∈ List.range J, 1 / ((src.length : Rat) + 1) * ((src.length : Rat) + 1) = 1 := by
        intro x _; rw [Rat.div_mul_cancel hz]
      rw [prodBy_congr (g := fun _ => 1) he]
      induction List.range J with
      | nil => rfl
      | cons x l ih => rw [prodBy_cons, ih]; grind
    grind
  | ibm2 =>
    dsimp only
    have he : ∀ j ∈ List.range J, sumBy (fun i => par p.al (j + 1, src.length, J) i) (List.range (src.length + 1)) = 1 := by
      intro j hj
      rw [List.mem_range] at hj
      exact hal rfl (j + 1) (by omega) (by omega)
    rw [prodBy_congr (g := fun _ => 1) he]
    have : prodBy (fun _ : Nat => (1 : Rat)) (List.range J) = 1 := by
      induction List.range J with
      | nil => rfl
      | cons x l ih => rw [prodBy_cons, ih]; grind
    rw [this]; grind

/-- C128: in particular for a trained IBM 1 model, any source sentence made of trained words and any target length. -/
theorem C128_ibm1_trained {pairs : Nat → TPair} (hw : ∀ n, 0 < (pairs n).w) {p : Pars} {tr : Nat → Prop}
    (h : Trained .ibm1 pairs p tr) (len : Rat) (src T : List Nat) (J : Nat) (hsrc : 1 ≤ src.length ∧ src.length ≤ 1024)
    (hJ : 1 ≤ J ∧ J ≤ 1024) (hs : ∀ s ∈ src, ∃ n, tr n ∧ Usable (pairs n) ∧ s ∈ (pairs n).src) (hT : T.Nodup)
    (hc : ∀ m, tr m → Usable (pairs m) → ∀ t ∈ (pairs m).trg, t ∈ T) :
    sumBy (calcProb .ibm1 p len src) (seqs T J) = len := by
  apply C128_total .ibm1 p len src T J
  · intro s hm
    rcases List.mem_cons.1 hm with rfl | hm
    · obtain ⟨s1, hs1⟩ := List.exists_mem_of_length_pos (l := src) (by omega)
      obtain ⟨n, a, b, _⟩ := hs s1 hs1
      exact (C127_lex hw h n a b 0 List.mem_cons_self T hT hc).1
    · obtain ⟨n, a, b, c⟩ := hs s hm
      exact (C127_lex hw h n a b s (List.mem_cons_of_mem _ c) T hT hc).1
  · intro hk; cases hk
  · intro _; exact ⟨hsrc.1, hsrc.2, hJ.1, hJ.2⟩

/-! ### Non-vacuity: a corpus of two pairs, trained incrementally with overlapping ranges and in batch -/

def pairsEx (n : Nat) : TPair := if n = 0 then ⟨[1, 2], [5, 6], 1⟩ else ⟨[1], [5], 2⟩

example : ∀ n, 0 < (pairsEx n).w := by
  intro n; unfold pairsEx; split <;> decide
example : Usable (pairsEx 0) ∧ Usable (pairsEx 1) := by unfold Usable; decide
example : sumBy (par (List.foldl (trainRange .ibm1 pairsEx) TState.empty [(0, 1), (1, 1)]).pars.lex 1) [5, 6] = 1 := by
  decide +kernel
example : par (List.foldl (trainRange .ibm2 pairsEx) TState.empty [(0, 1), (1, 1)]).pars.lex 2 6 = 1 / 2 := by decide +kernel
example : sumBy (calcProb .ibm1 (List.foldl (trainRange .ibm1 pairsEx) TState.empty [(0, 1)]).pars (1 / 7) [2, 1])
    (seqs [5, 6] 2) = 1 / 7 := by decide +kernel

end Thot.Ibm
