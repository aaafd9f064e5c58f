import Verif.Ibm.PropsPartial
import Mathlib.Data.List.Dedup
/-!
Lemmas on the tables that training leaves in IBM models 1 and 2.
-/
namespace Thot.Ibm

open Thot Thot.Sum Thot.Hmm

/-- Two sums over lists without repetitions of a function that is zero outside both. -/
theorem sumBy_nodup_eq {A : Type} [DecidableEq A] (f : A → Rat) {l m : List A} (hl : l.Nodup) (hm : m.Nodup)
    (h1 : ∀ x ∈ l, x ∉ m → f x = 0) (h2 : ∀ x ∈ m, x ∉ l → f x = 0) : sumBy f l = sumBy f m := by
  have e : ∀ (a b : List A), (∀ x ∈ a, x ∉ b → f x = 0) → sumBy f a = sumBy f (a.filter fun x => decide (x ∈ b)) := by
    intro a b h
    rw [sumBy_filter]
    apply sumBy_congr
    intro x hx
    by_cases hb : x ∈ b
    · simp [hb]
    · simp [hb, h x hx hb]
  rw [e l m h1, e m l h2]
  apply sumBy_perm
  rw [List.perm_ext_iff_of_nodup (hl.filter _) (hm.filter _)]
  intro a
  simp only [List.mem_filter, decide_eq_true_eq]
  exact And.comm

theorem sumBy_pos {A : Type} {f : A → Rat} {l : List A} (h : ∀ a ∈ l, 0 ≤ f a) {a : A} (ha : a ∈ l) (hp : 0 < f a) :
    0 < sumBy f l := by
  have := le_sumBy h ha
  grind

variable {γ G X : Type} [DecidableEq γ] [DecidableEq G] [DecidableEq X]

theorem par_eq {t : Tables G X} (h : TabOk t) (g : G) (x : X) : par t g x = numAt t (g, x) / denSum t.num g := by
  unfold par numAt
  rw [← h.den g]
  cases hn : AMap.lk t.num (g, x) with
  | none => simp [Rat.div_def]
  | some n =>
    have := h.some (g, x) (by rw [hn]; rfl)
    obtain ⟨d, hd⟩ := Option.isSome_iff_exists.1 this
    rw [hd]
    rfl

theorem denSum_keys {t : Tables G X} (h : TabOk t) (g : G) {U : List (G × X)} (hU : U.Nodup)
    (hc : ∀ u, numAt t u ≠ 0 → u ∈ U) :
    denSum t.num g = sumBy (fun u => if u.1 = g then numAt t u else 0) U := by
  have e : denSum t.num g = sumBy (fun u => if u.1 = g then numAt t u else 0) (t.num.map Prod.fst) := by
    unfold denSum
    rw [sumBy_map]
    apply sumBy_congr
    intro e he
    by_cases hg : e.1.1 = g
    · rw [if_pos hg, if_pos hg]
      unfold numAt
      rw [(AMap.lk_some_iff h.dist).2 (show (e.1, e.2) ∈ t.num from he)]
      rfl
    · rw [if_neg hg, if_neg hg]
  rw [e]
  apply sumBy_nodup_eq _ h.dist hU
  · intro u _ hu
    by_cases hn : numAt t u = 0
    · rw [hn]; simp
    · exact absurd (hc u hn) hu
  · intro u _ hu
    have : numAt t u = 0 := by
      unfold numAt
      rw [AMap.lk_none_iff.2 hu]
      rfl
    rw [this]; simp

theorem denSum_row {t : Tables G X} (h : TabOk t) (g : G) {T : List X} (hT : T.Nodup)
    (hc : ∀ x, numAt t (g, x) ≠ 0 → x ∈ T) : denSum t.num g = sumBy (fun x => numAt t (g, x)) T := by
  have e : denSum t.num g = sumBy (fun u => if u.1 = g then numAt t u else 0) (t.num.map Prod.fst) := by
    apply denSum_keys h g h.dist
    intro u hu
    apply Classical.byContradiction
    intro hn
    apply hu
    unfold numAt
    rw [AMap.lk_none_iff.2 hn]; rfl
  have e2 : sumBy (fun x => numAt t (g, x)) T = sumBy (fun u => if u.1 = g then numAt t u else 0) (T.map fun x => (g, x)) := by
    rw [sumBy_map]; simp
  rw [e, e2]
  apply sumBy_nodup_eq _ h.dist (nodup_map_inj _ _ hT (fun a b hh => (Prod.mk.inj hh).2))
  · intro u hu hn
    by_cases hg : u.1 = g
    · rw [if_pos hg]
      apply Classical.byContradiction
      intro hz
      apply hn
      rw [List.mem_map]
      refine ⟨u.2, hc u.2 ?_, ?_⟩
      · rw [← hg]; exact hz
      · rw [← hg]
    · rw [if_neg hg]
  · intro u _ hn
    have : numAt t u = 0 := by
      unfold numAt
      rw [AMap.lk_none_iff.2 hn]; rfl
    rw [this]; simp

/-- If every numerator is nonnegative, the parameters of a group add up to one over any list that covers it, and to at
most one over any list. -/
theorem par_sum {t : Tables G X} (h : TabOk t) (h0 : ∀ u, 0 ≤ numAt t u) (g : G) {T : List X} (hT : T.Nodup) :
    ((∀ x, numAt t (g, x) ≠ 0 → x ∈ T) → (∃ x, numAt t (g, x) ≠ 0) → sumBy (par t g) T = 1) ∧
    sumBy (par t g) T ≤ 1 ∧ (∀ x, 0 ≤ par t g x) := by
  have hden : ∀ x, numAt t (g, x) ≤ denSum t.num g := by
    intro x
    have hrow := denSum_row h g (T := ((t.num.map Prod.fst).filter fun u => decide (u.1 = g)).map Prod.snd) (by
      have hn : ((t.num.map Prod.fst).filter fun u => decide (u.1 = g)).Nodup := (show (t.num.map Prod.fst).Nodup from h.dist).filter _
      generalize hl : ((t.num.map Prod.fst).filter fun u => decide (u.1 = g)) = l at hn
      have hg : ∀ u ∈ l, u.1 = g := by
        intro u hu
        rw [← hl, List.mem_filter] at hu
        exact of_decide_eq_true hu.2
      clear hl
      induction l with
      | nil => exact List.nodup_nil
      | cons a l ih =>
        obtain ⟨n1, n2⟩ := List.nodup_cons.1 hn
        rw [List.map_cons, List.nodup_cons]
        refine ⟨fun hm => ?_, ih n2 fun u hu => hg u (List.mem_cons_of_mem _ hu)⟩
        obtain ⟨b, hb, he⟩ := List.mem_map.1 hm
        have : b = a := Prod.ext ((hg b (List.mem_cons_of_mem _ hb)).trans (hg a List.mem_cons_self).symm) he
        exact n1 (this ▸ hb)) (by
      intro x hx
      rw [List.mem_map]
      refine ⟨(g, x), List.mem_filter.2 ⟨?_, by simp⟩, rfl⟩
      apply Classical.byContradiction
      intro hn
      apply hx
      unfold numAt
      rw [AMap.lk_none_iff.2 hn]; rfl)
    rw [hrow]
    by_cases hx : numAt t (g, x) = 0
    · rw [hx]; exact sumBy_nonneg fun y _ => h0 _
    · apply le_sumBy (f := fun x => numAt t (g, x)) (fun y _ => h0 _)
      rw [List.mem_map]
      refine ⟨(g, x), List.mem_filter.2 ⟨?_, by simp⟩, rfl⟩
      apply Classical.byContradiction
      intro hn
      apply hx
      unfold numAt
      rw [AMap.lk_none_iff.2 hn]; rfl
  have hd0 : 0 ≤ denSum t.num g := by
    rw [← h.den]
    rw [h.den]
    unfold denSum
    apply sumBy_nonneg
    intro e he
    by_cases hg : e.1.1 = g
    · rw [if_pos hg]
      have := h0 e.1
      unfold numAt at this
      rw [(AMap.lk_some_iff h.dist).2 (show (e.1, e.2) ∈ t.num from he)] at this
      exact this
    · rw [if_neg hg] <;> exact Rat.le_refl
  have hs : sumBy (par t g) T = sumBy (fun x => numAt t (g, x)) T / denSum t.num g := by
    rw [Rat.div_def, ← sumBy_mul_right]
    apply sumBy_congr
    intro x _
    rw [par_eq h, Rat.div_def]
  have hinv : 0 ≤ (denSum t.num g)⁻¹ := by
    by_cases hz : denSum t.num g = 0
    · rw [hz]; decide +kernel
    · exact Rat.le_of_lt (Rat.inv_pos.2 (by grind))
  refine ⟨fun hc hx => ?_, ?_, fun x => ?_⟩
  · obtain ⟨x, hx⟩ := hx
    have hp : 0 < denSum t.num g := by
      have a := hden x
      have b := h0 (g, x)
      grind
    rw [hs, ← denSum_row h g hT hc, Rat.div_def, Rat.mul_inv_cancel _ (by grind)]
  · rw [hs]
    by_cases hz : denSum t.num g = 0
    · rw [hz]; simp [Rat.div_def] <;> decide
    · have hp : 0 < denSum t.num g := by grind
      apply Rat.le_of_mul_le_mul_right (c := denSum t.num g) _ hp
      rw [Rat.div_mul_cancel hz]
      -- extend T to a covering list
      have hle : sumBy (fun x => numAt t (g, x)) T ≤ denSum t.num g := by
        have hext : (T ++ ((t.num.map fun e => e.1.2).dedup.filter fun x => decide (x ∉ T))).Nodup := by
          rw [List.nodup_append]
          refine ⟨hT, (List.nodup_dedup _).filter _, ?_⟩
          intro a ha b hb hab
          subst hab
          have := (List.mem_filter.1 hb).2
          simp [ha] at this
        rw [denSum_row h g hext (by
          intro x hx
          rw [List.mem_append, List.mem_filter, List.mem_dedup]
          by_cases hxT : x ∈ T
          · exact Or.inl hxT
          · refine Or.inr ⟨?_, by simpa using hxT⟩
            rw [List.mem_map]
            cases hn : AMap.lk t.num (g, x) with
            | none => exact absurd (by unfold numAt; rw [hn]; rfl) hx
            | some n => exact ⟨((g, x), n), mem_of_lk hn, rfl⟩), sumBy_append]
        have := sumBy_nonneg (f := fun x => numAt t (g, x))
          (l := (t.num.map fun e => e.1.2).dedup.filter fun x => decide (x ∉ T)) (fun x _ => h0 _)
        grind
      grind
  · rw [par_eq h, Rat.div_def]
    exact Rat.mul_nonneg (h0 _) hinv

/-- Batch training. -/
theorem batch_spec (corpus : Nat → Option (Hmm.Sent γ G X)) (hc : CellsOk corpus) (st : Est γ G X) (lo hi : Nat)
    (new : Nat → γ → Rat) :
    TabOk (batchTrain corpus st lo hi new).tab ∧
    ∀ key, numAt (batchTrain corpus st lo hi new).tab key = sumBy (newC corpus new key) (List.range' lo (hi + 1 - lo)) := by
  unfold batchTrain gatherRange
  dsimp only
  obtain ⟨a1, a2, a3, a4, a5⟩ := gatherList_spec hc (m := (Mem.empty (some 0) : Mem γ)) .zero new
    (List.range' lo (hi + 1 - lo)) List.nodup_range' []
  obtain ⟨b1, b2, b3, b4⟩ := updateAll_spec _ (a4 AMap.distinct_nil) (tabOk_empty (G := G) (X := X))
  refine ⟨b1, fun key => ?_⟩
  rw [b2 key, a3]
  have hz : sumBy (oldC corpus (Mem.empty (some 0) : Mem γ) key) (List.range' lo (hi + 1 - lo)) = 0 := by
    apply sumBy_zero
    intro n _
    unfold oldC
    cases corpus n with
    | none => rfl
    | some snt =>
      dsimp only
      apply sumBy_zero
      intro d _
      simp [recall, Mem.empty, wcurr]
  rw [hz]
  simp only [auxAt, AMap.lk, Option.getD_none, numAt]
  grind

/-! ### Cells -/

theorem lexCells1_nodup (ns trg : List Nat) : ((lexCells1 ns trg).map Prod.fst).Nodup := by
  unfold lexCells1
  rw [List.map_flatMap]
  apply nodup_flatMap _ _ List.nodup_range'
  · intro j _
    rw [List.map_map]
    exact nodup_map_inj _ _ List.nodup_range (fun a b h => (Prod.mk.inj h).2)
  · intro j _ j' _ b hb hb'
    rw [List.map_map, List.mem_map] at hb hb'
    obtain ⟨_, _, rfl⟩ := hb
    obtain ⟨_, _, h⟩ := hb'
    exact (Prod.mk.inj h).1.symm

theorem alCells_nodup (k : Kind) (ns trg : List Nat) : ((alCells k ns trg).map Prod.fst).Nodup := by
  unfold alCells
  cases k with
  | ibm1 => exact List.nodup_nil
  | ibm2 =>
    dsimp only
    rw [List.map_flatMap]
    apply nodup_flatMap _ _ List.nodup_range'
    · intro j _
      rw [List.map_map]
      exact nodup_map_inj _ _ List.nodup_range (fun a b h => (Prod.mk.inj h).2)
    · intro j _ j' _ b hb hb'
      rw [List.map_map, List.mem_map] at hb hb'
      obtain ⟨_, _, rfl⟩ := hb
      obtain ⟨_, _, h⟩ := hb'
      exact (Prod.mk.inj h).1.symm

theorem lexCorpus_ok (pairs : Nat → TPair) : CellsOk (lexCorpus pairs) := by
  intro n snt h
  unfold lexCorpus at h
  split at h
  · cases h; exact lexCells1_nodup _ _
  · cases h

theorem alCorpus_ok (k : Kind) (pairs : Nat → TPair) : CellsOk (alCorpus k pairs) := by
  intro n snt h
  unfold alCorpus at h
  split at h
  · cases h; exact alCells_nodup _ _ _
  · cases h

/-! ### Positive expected values -/

theorem smooth_pos : (0 : Rat) < smooth := by decide +kernel

theorem anjiFloor_pos (k : Kind) (p : Pars) (ns trg : List Nat) (i j : Nat) : 0 < anjiFloor k p ns trg i j := by
  unfold anjiFloor
  have := smooth_pos
  split <;> grind

theorem anjiRaw_pos (k : Kind) (p : Pars) (ns trg : List Nat) (c : Nat × Nat) (hn : ns ≠ []) : 0 < anjiRaw k p ns trg c := by
  unfold anjiRaw
  rw [foldl_sum]
  have hs : 0 < sumBy (fun i => anjiFloor k p ns trg i c.1) (List.range ns.length) :=
    sumBy_pos (fun i _ => Rat.le_of_lt (anjiFloor_pos k p ns trg i c.1))
      (List.mem_range.2 (List.length_pos_iff.2 hn)) (anjiFloor_pos k p ns trg 0 c.1)
  rw [Rat.div_def]
  exact Rat.mul_pos (anjiFloor_pos _ _ _ _ _ _) (Rat.inv_pos.2 (by grind))

theorem anjiVal_pos (k : Kind) (p : Pars) (w : Rat) (hw : 0 < w) (ns trg : List Nat) (c : Nat × Nat) (hn : ns ≠ []) :
    0 < anjiVal k p w ns trg c := by
  unfold anjiVal
  split
  · rw [Rat.div_def]; exact Rat.mul_pos smooth_pos (Rat.inv_pos.2 hw)
  · exact anjiRaw_pos k p ns trg c hn

theorem newVals_pos (k : Kind) (p : Pars) (pairs : Nat → TPair) (hw : ∀ n, 0 < (pairs n).w) (n : Nat) (c : Nat × Nat) :
    0 < newVals k p pairs n c := by
  unfold newVals
  exact anjiVal_pos k p _ (hw n) _ _ c (by simp [addNull])

omit [DecidableEq γ] in
theorem contrib_nonneg {snt : Hmm.Sent γ G X} (hw : 0 < snt.weight) {v : γ → Rat} (hv : ∀ c, 0 < v c) (key : G × X) :
    0 ≤ contrib snt v key := by
  unfold contrib
  apply sumBy_nonneg
  intro c _
  split
  · exact Rat.le_of_lt (Rat.mul_pos hw (hv _))
  · exact Rat.le_refl

omit [DecidableEq γ] in
theorem contrib_pos {snt : Hmm.Sent γ G X} (hw : 0 < snt.weight) {v : γ → Rat} (hv : ∀ c, 0 < v c) {key : G × X}
    (hk : key ∈ snt.cells.map Prod.snd) : 0 < contrib snt v key := by
  unfold contrib
  obtain ⟨c, hc, rfl⟩ := List.mem_map.1 hk
  apply sumBy_pos (a := c) _ hc
  · rw [if_pos rfl]; exact Rat.mul_pos hw (hv _)
  · intro d _
    split
    · exact Rat.le_of_lt (Rat.mul_pos hw (hv _))
    · exact Rat.le_refl

omit [DecidableEq γ] in
theorem contrib_ne_zero {snt : Hmm.Sent γ G X} {v : γ → Rat} {key : G × X}
    (h : contrib snt v key ≠ 0) : key ∈ snt.cells.map Prod.snd := by
  apply Classical.byContradiction
  intro hn
  apply h
  unfold contrib
  apply sumBy_zero
  intro c hc
  rw [if_neg]
  intro he
  exact hn (List.mem_map.2 ⟨c, hc, he⟩)

end Thot.Ibm
