import Verif.LexMerge.Merge
/-!
C134: pruning a table. C135: filtering a table.
-/
set_option linter.unusedSectionVars false

namespace Thot.LexMerge

open Thot Thot.Sum

variable {S T : Type} [LinearOrder S] [LinearOrder T]

/-! ### Specification -/

/-- The targets and counts of a source in a table. -/
def groupOf (l : List (Rec S T)) (s : S) : List (T × Rat) := (l.filter fun r => decide (r.s = s)).map fun r => (r.t, r.num)

/-- Sum of counts. -/
def total (l : List (T × Rat)) : Rat := sumBy (fun x => x.2) l

/-- `kept` is a right choice of the best `n` entries (all for 0) with probability at least `c`, the other ones being
`dropped`. -/
def BestOf (n : Nat) (c : Rat) (kept dropped : List (T × Rat)) : Prop :=
  (n ≠ 0 → kept.length ≤ n) ∧ (∀ x ∈ kept, c ≤ x.2 / total (kept ++ dropped)) ∧
  ∀ y ∈ dropped, y.2 / total (kept ++ dropped) < c ∨ (n ≠ 0 ∧ kept.length = n ∧ ∀ x ∈ kept, y.2 ≤ x.2)

/-! ### Groups -/

theorem groupOf_snoc (p : List (Rec S T)) (r : Rec S T) (s : S) :
    groupOf (p ++ [r]) s = groupOf p s ++ (if r.s = s then [(r.t, r.num)] else []) := by
  unfold groupOf
  rw [List.filter_append, List.map_append]
  congr 1
  by_cases h : r.s = s
  · rw [if_pos h]; simp [h]
  · rw [if_neg h]; simp [h]

theorem total_snoc (l : List (T × Rat)) (x : T × Rat) : total (l ++ [x]) = total l + x.2 := by
  unfold total; rw [sumBy_append, sumBy_cons, sumBy_nil]; grind

/-- The right groups for a table. -/
def GroupsOk (p : List (Rec S T)) (gs : List (S × List (T × Rat) × Rat)) : Prop :=
  gs.Pairwise (fun a b => a.1 < b.1) ∧ (∀ g ∈ gs, g.2.1 = groupOf p g.1 ∧ g.2.2 = total g.2.1 ∧ ∃ r ∈ p, r.s = g.1) ∧
  ∀ r ∈ p, ∃ g ∈ gs, g.1 = r.s

theorem groups_ok (p : List (Rec S T)) (hp : p.Pairwise (fun a b => a.s ≤ b.s)) :
    GroupsOk p (pruneGroups p) ∧ (∀ g, (p.foldl pgStep ([], none)).2 = some g → ∀ r ∈ p, r.s ≤ g.1) ∧
      ((p.foldl pgStep ([], none)).2 = none → p = []) := by
  induction p using List.reverseRecOn with
  | nil =>
    refine ⟨⟨List.Pairwise.nil, fun g h => (by cases h), fun r h => (by cases h)⟩, fun g h => (by cases h), fun _ => rfl⟩
  | append_singleton p r ih =>
    obtain ⟨hp1, _, hp2⟩ := List.pairwise_append.1 hp
    obtain ⟨⟨i1, i2, i3⟩, i4, i5⟩ := ih hp1
    have hle : ∀ a ∈ p, a.s ≤ r.s := fun a ha => hp2 a ha r (List.mem_singleton.2 rfl)
    have hf : (p ++ [r]).foldl pgStep ([], none) = pgStep (p.foldl pgStep ([], none)) r := by
      rw [List.foldl_append]; rfl
    have hr : r ∈ p ++ [r] := List.mem_append_right _ (List.mem_singleton.2 rfl)
    unfold pruneGroups at i1 i2 i3 ⊢
    rw [hf]
    generalize p.foldl pgStep ([], none) = st at i1 i2 i3 i4 i5
    obtain ⟨done, cur⟩ := st
    have hnew : groupOf p r.s = [] → groupOf (p ++ [r]) r.s = [(r.t, r.num)] := by
      intro h; rw [groupOf_snoc, h, if_pos rfl]; rfl
    have htot : r.num = total [((r.t, r.num) : T × Rat)] := by
      unfold total; rw [sumBy_cons, sumBy_nil]; grind
    cases cur with
    | none =>
      have hpn := i5 rfl
      subst hpn
      have hd : done = [] := by
        cases done with
        | nil => rfl
        | cons g l =>
          obtain ⟨_, _, x, hx, _⟩ := i2 g (List.mem_append_left _ List.mem_cons_self)
          cases hx
      subst hd
      refine ⟨⟨List.pairwise_singleton _ _, ?_, ?_⟩, ?_, fun h => (by cases h)⟩
      · intro g hg
        rw [show (pgStep ([], none) r).1 ++ (pgStep ([], none) r).2.toList = [(r.s, [(r.t, r.num)], r.num)] from rfl,
          List.mem_singleton] at hg
        subst hg
        exact ⟨(hnew rfl).symm, htot, r, hr, rfl⟩
      · intro x hx
        rw [List.nil_append, List.mem_singleton] at hx
        subst hx
        exact ⟨_, List.mem_singleton.2 rfl, rfl⟩
      · intro g hg x hx
        rw [List.nil_append, List.mem_singleton] at hx
        subst hx
        cases hg
        exact le_refl _
    | some g =>
      have hmax := i4 g rfl
      have hg : g ∈ done ++ [g] := List.mem_append_right _ (List.mem_singleton.2 rfl)
      obtain ⟨j1, j2, x0, hx0, hx0s⟩ := i2 g hg
      have hgr : g.1 ≤ r.s := by rw [← hx0s]; exact hle x0 hx0
      have hlt : ∀ g' ∈ done, g'.1 < g.1 := by
        intro g' hg'
        exact (List.pairwise_append.1 i1).2.2 g' hg' g (List.mem_singleton.2 rfl)
      by_cases hs : g.1 ≠ r.s
      · have e : pgStep (done, some g) r = (done ++ [g], some (r.s, [(r.t, r.num)], r.num)) := if_pos hs
        rw [e]
        have hltr : g.1 < r.s := lt_of_le_of_ne hgr hs
        have hno : groupOf p r.s = [] := by
          unfold groupOf
          rw [List.map_eq_nil_iff, List.filter_eq_nil_iff]
          intro a ha has
          have := hmax a ha
          rw [of_decide_eq_true has] at this
          exact absurd hltr (not_lt.2 this)
        refine ⟨⟨?_, ?_, ?_⟩, ?_, fun h => (by cases h)⟩
        · rw [List.pairwise_append]
          refine ⟨i1, List.pairwise_singleton _ _, ?_⟩
          intro a ha b hb
          rw [show b = (r.s, [(r.t, r.num)], r.num) from List.mem_singleton.1 hb]
          rcases List.mem_append.1 ha with ha | ha
          · exact lt_trans (hlt a ha) hltr
          · rw [List.mem_singleton.1 ha]; exact hltr
        · intro g' hg'
          rcases List.mem_append.1 hg' with hg' | hg'
          · obtain ⟨a1, a2, a3, a4, a5⟩ := i2 g' hg'
            have hne : ¬ r.s = g'.1 := by
              intro h
              have := hmax a3 a4
              rw [a5, ← h] at this
              exact absurd hltr (not_lt.2 this)
            refine ⟨?_, a2, a3, List.mem_append_left _ a4, a5⟩
            rw [groupOf_snoc, if_neg hne, List.append_nil]; exact a1
          · rw [show g' = (r.s, [(r.t, r.num)], r.num) from List.mem_singleton.1 hg']
            exact ⟨(hnew hno).symm, htot, r, hr, rfl⟩
        · intro x hx
          rcases List.mem_append.1 hx with hx | hx
          · obtain ⟨g', h1, h2⟩ := i3 x hx
            exact ⟨g', List.mem_append_left _ h1, h2⟩
          · rw [List.mem_singleton.1 hx]
            exact ⟨_, List.mem_append_right _ (List.mem_singleton.2 rfl), rfl⟩
        · intro g' hg' x hx
          cases hg'
          rcases List.mem_append.1 hx with hx | hx
          · exact hle x hx
          · rw [List.mem_singleton.1 hx]
      · have e : pgStep (done, some g) r = (done, some (g.1, g.2.1 ++ [(r.t, r.num)], g.2.2 + r.num)) := if_neg hs
        rw [e]
        have hs' : g.1 = r.s := not_not.1 hs
        refine ⟨⟨?_, ?_, ?_⟩, ?_, fun h => (by cases h)⟩
        · obtain ⟨k1, k2, k3⟩ := List.pairwise_append.1 i1
          refine List.pairwise_append.2 ⟨k1, List.pairwise_singleton _ _, ?_⟩
          intro a ha b hb
          rw [show b = (g.1, g.2.1 ++ [(r.t, r.num)], g.2.2 + r.num) from List.mem_singleton.1 hb]
          exact hlt a ha
        · intro g' hg'
          rcases List.mem_append.1 hg' with hg' | hg'
          · obtain ⟨a1, a2, a3, a4, a5⟩ := i2 g' (List.mem_append_left _ hg')
            have hne : ¬ r.s = g'.1 := by
              intro h
              have := hlt g' hg'
              rw [hs', h] at this
              exact lt_irrefl _ this
            refine ⟨?_, a2, a3, List.mem_append_left _ a4, a5⟩
            rw [groupOf_snoc, if_neg hne, List.append_nil]; exact a1
          · rw [show g' = (g.1, g.2.1 ++ [(r.t, r.num)], g.2.2 + r.num) from List.mem_singleton.1 hg']
            refine ⟨?_, ?_, r, hr, hs'.symm⟩
            · dsimp only
              rw [groupOf_snoc, if_pos hs'.symm, ← j1]
            · dsimp only
              rw [total_snoc, ← j2]
        · intro x hx
          rcases List.mem_append.1 hx with hx | hx
          · obtain ⟨g', h1, h2⟩ := i3 x hx
            rcases List.mem_append.1 h1 with h1 | h1
            · exact ⟨g', List.mem_append_left _ h1, h2⟩
            · rw [List.mem_singleton.1 h1] at h2
              exact ⟨_, List.mem_append_right _ (List.mem_singleton.2 rfl), h2⟩
          · rw [List.mem_singleton.1 hx]
            exact ⟨_, List.mem_append_right _ (List.mem_singleton.2 rfl), hs'⟩
        · intro g' hg' x hx
          cases hg'
          rcases List.mem_append.1 hx with hx | hx
          · exact hmax x hx
          · rw [List.mem_singleton.1 hx, hs']

/-! ### What is kept -/

theorem keepLoop_spec (n : Nat) (c lc : Rat) (hlc : 0 < lc) (l : List (T × Rat)) (hs : l.Pairwise fun a b => ¬ a.2 < b.2) :
    ∀ st : Rat × Nat, ∃ m, m ≤ l.length ∧ (keepLoop n c lc l st).2 = st.2 + m ∧
      (keepLoop n c lc l st).1 = st.1 + total (l.take m) ∧ (∀ x ∈ l.take m, c ≤ x.2 / lc) ∧
      (n ≠ 0 → m ≠ 0 → st.2 + m ≤ n) ∧
      ∀ y ∈ l.drop m, y.2 / lc < c ∨ (n ≠ 0 ∧ n ≤ st.2 + m ∧ ∀ x ∈ l.take m, y.2 ≤ x.2) := by
  induction l with
  | nil =>
    intro st
    refine ⟨0, Nat.le_refl _, rfl, ?_, fun x h => (by cases h), fun _ h => absurd rfl h, fun y h => (by cases h)⟩
    show st.1 = st.1 + sumBy _ []
    rw [sumBy_nil]; grind
  | cons x l ih =>
    intro st
    obtain ⟨hx, hl⟩ := List.pairwise_cons.1 hs
    by_cases hc : (st.2 < n ∨ n ≤ 0) ∧ x.2 / lc ≥ c
    · obtain ⟨m, m1, m2, m3, m4, m5, m6⟩ := ih hl (st.1 + x.2, st.2 + 1)
      have e : keepLoop n c lc (x :: l) st = keepLoop n c lc l (st.1 + x.2, st.2 + 1) := if_pos hc
      rw [e]
      refine ⟨m + 1, ?_, ?_, ?_, ?_, ?_, ?_⟩
      · rw [List.length_cons]; omega
      · rw [m2]; dsimp only; omega
      · rw [m3, List.take_succ_cons]
        unfold total
        rw [sumBy_cons]
        dsimp only; grind
      · intro y hy
        rw [List.take_succ_cons] at hy
        rcases List.mem_cons.1 hy with rfl | hy
        · exact hc.2
        · exact m4 y hy
      · intro hn _
        by_cases hm : m = 0
        · subst hm
          rcases hc.1 with h | h <;> omega
        · have := m5 hn hm
          dsimp only at this
          omega
      · intro y hy
        rw [List.drop_succ_cons] at hy
        rcases m6 y hy with h | ⟨h1, h2, h3⟩
        · exact Or.inl h
        · refine Or.inr ⟨h1, ?_, ?_⟩
          · dsimp only at h2; omega
          · intro z hz
            rw [List.take_succ_cons] at hz
            rcases List.mem_cons.1 hz with rfl | hz
            · have := hx y (List.mem_of_mem_drop hy)
              grind
            · exact h3 z hz
    · have e : keepLoop n c lc (x :: l) st = st := if_neg hc
      rw [e]
      refine ⟨0, Nat.zero_le _, rfl, ?_, fun x h => (by cases h), fun _ h => absurd rfl h, ?_⟩
      · show st.1 = st.1 + sumBy _ []
        rw [sumBy_nil]; grind
      · intro y hy
        rw [List.drop_zero] at hy
        by_cases h1 : st.2 < n ∨ n ≤ 0
        · refine Or.inl ?_
          have hxc : x.2 / lc < c := by
            have : ¬ x.2 / lc ≥ c := fun h => hc ⟨h1, h⟩
            grind
          have hyx : y.2 ≤ x.2 := by
            rcases List.mem_cons.1 hy with rfl | hy
            · exact Rat.le_refl
            · have := hx y hy; grind
          have : y.2 / lc ≤ x.2 / lc := by
            rw [Rat.div_def, Rat.div_def]
            exact Rat.mul_le_mul_of_nonneg_right hyx (Rat.le_of_lt (Rat.inv_pos.2 hlc))
          grind
        · refine Or.inr ⟨by omega, by omega, fun z hz => (by cases hz)⟩

theorem total_perm {a b : List (T × Rat)} (h : a.Perm b) : total a = total b := sumBy_perm _ h

theorem pruneGroup_spec (n : Nat) (c : Rat) (s : S) (g sorted : List (T × Rat)) (hs : Sorts g sorted) (hpos : 0 < total g) :
    ∃ kept dropped, (kept ++ dropped).Perm g ∧ BestOf n c kept dropped ∧
      pruneGroup n c s (total g) sorted = kept.map fun x => (⟨s, x.1, x.2, total kept⟩ : Rec S T) := by
  obtain ⟨m, m1, m2, m3, m4, m5, m6⟩ := keepLoop_spec n c (total g) hpos sorted hs.2 (0, 0)
  have ht : total (sorted.take m ++ sorted.drop m) = total g := by rw [List.take_append_drop]; exact total_perm hs.1
  refine ⟨sorted.take m, sorted.drop m, ?_, ⟨?_, ?_, ?_⟩, ?_⟩
  · rw [List.take_append_drop]; exact hs.1
  · intro hn
    rw [List.length_take]
    by_cases hm : m = 0
    · omega
    · have := m5 hn hm
      dsimp only at this
      omega
  · intro x hx
    rw [ht]; exact m4 x hx
  · intro y hy
    rw [ht]
    rcases m6 y hy with h | ⟨h1, h2, h3⟩
    · exact Or.inl h
    · refine Or.inr ⟨h1, ?_, h3⟩
      dsimp only at h2
      rw [List.length_take]
      by_cases hm : m = 0
      · omega
      · have := m5 h1 hm
        dsimp only at this
        omega
  · unfold pruneGroup
    dsimp only
    rw [m2, m3]
    dsimp only
    rw [Nat.zero_add, show (0 : Rat) + total (sorted.take m) = total (sorted.take m) by grind]

/-! ### C134 -/

/-- C134: for a table with positive counts sorted by source, pruning keeps for each source a right choice of its best entries,
with their counts, and gives them as denominator the sum of the counts kept (so that they are again a distribution). -/
theorem C134_prune (n : Nat) (c : Rat) (l : List (Rec S T)) (hl : l.Pairwise (fun a b => a.s ≤ b.s)) (hpos : ∀ r ∈ l, 0 < r.num)
    (out : List (Rec S T)) (h : Prunes n c (pruneGroups l) out) (s : S) :
    ∃ kept dropped, (kept ++ dropped).Perm (groupOf l s) ∧ BestOf n c kept dropped ∧
      (out.filter fun r => decide (r.s = s)) = kept.map fun x => ⟨s, x.1, x.2, total kept⟩ := by
  obtain ⟨⟨g1, g2, g3⟩, _⟩ := groups_ok l hl
  have key : ∀ gs out, Prunes n c gs out → gs.Pairwise (fun a b => a.1 < b.1) →
      (∀ g ∈ gs, g.2.1 = groupOf l g.1 ∧ g.2.2 = total g.2.1 ∧ 0 < g.2.2) →
      ((∀ g ∈ gs, g.1 ≠ s) → (out.filter fun r => decide (r.s = s)) = []) ∧
      ((∃ g ∈ gs, g.1 = s) → ∃ kept dropped, (kept ++ dropped).Perm (groupOf l s) ∧ BestOf n c kept dropped ∧
        (out.filter fun r => decide (r.s = s)) = kept.map fun x => ⟨s, x.1, x.2, total kept⟩) := by
    intro gs out hp
    induction hp with
    | nil =>
      intro _ _
      exact ⟨fun _ => rfl, fun ⟨g, hg, _⟩ => (by cases hg)⟩
    | cons s' grp sorted lc gs out hs hp ih =>
      intro hpw hg
      obtain ⟨p1, p2⟩ := List.pairwise_cons.1 hpw
      obtain ⟨q1, q2⟩ := ih p2 (fun g hg' => hg g (List.mem_cons_of_mem _ hg'))
      obtain ⟨a1, a2, a3⟩ := hg _ List.mem_cons_self
      dsimp only at a1 a2 a3
      subst a2
      obtain ⟨kept, dropped, k1, k2, k3⟩ := pruneGroup_spec (S := S) n c s' grp sorted hs a3
      rw [List.filter_append, k3]
      have hfil : ((kept.map fun x => (⟨s', x.1, x.2, total kept⟩ : Rec S T)).filter fun r => decide (r.s = s)) =
          if s' = s then kept.map fun x => (⟨s', x.1, x.2, total kept⟩ : Rec S T) else [] := by
        by_cases hss : s' = s
        · rw [if_pos hss, List.filter_eq_self]
          intro r hr
          obtain ⟨x, _, rfl⟩ := List.mem_map.1 hr
          exact decide_eq_true hss
        · rw [if_neg hss, List.filter_eq_nil_iff]
          intro r hr
          obtain ⟨x, _, rfl⟩ := List.mem_map.1 hr
          simpa using hss
      rw [hfil]
      constructor
      · intro hno
        rw [if_neg (hno _ List.mem_cons_self), q1 (fun g hg' => hno g (List.mem_cons_of_mem _ hg'))]
        rfl
      · rintro ⟨g, hg', hgs⟩
        rcases List.mem_cons.1 hg' with rfl | hg'
        · have hss : s' = s := hgs
          rw [if_pos hss, q1 (by
            intro g' hg'' he
            have := p1 g' hg''
            dsimp only at this
            rw [hss, he] at this
            exact lt_irrefl _ this), List.append_nil]
          refine ⟨kept, dropped, ?_, k2, ?_⟩
          · rw [← hss, ← a1]; exact k1
          · rw [hss]
        · have hss : ¬ s' = s := by
            intro h
            have := p1 g hg'
            dsimp only at this
            rw [h, hgs] at this
            exact lt_irrefl _ this
          rw [if_neg hss, List.nil_append]
          exact q2 ⟨g, hg', hgs⟩
  have hgpos : ∀ g ∈ pruneGroups l, g.2.1 = groupOf l g.1 ∧ g.2.2 = total g.2.1 ∧ 0 < g.2.2 := by
    intro g hg
    obtain ⟨a1, a2, r, hr, hrs⟩ := g2 g hg
    refine ⟨a1, a2, ?_⟩
    rw [a2, a1]
    unfold total groupOf
    rw [sumBy_map]
    have hmem : r ∈ l.filter fun r => decide (r.s = g.1) := List.mem_filter.2 ⟨hr, decide_eq_true hrs⟩
    have := le_sumBy (f := fun r : Rec S T => r.num) (l := l.filter fun r => decide (r.s = g.1))
      (fun a ha => Rat.le_of_lt (hpos a (List.mem_filter.1 ha).1)) hmem
    have := hpos r hr
    grind
  obtain ⟨k1, k2⟩ := key _ _ h g1 hgpos
  by_cases hs : ∃ g ∈ pruneGroups l, g.1 = s
  · exact k2 hs
  · have hno : ∀ g ∈ pruneGroups l, g.1 ≠ s := fun g hg he => hs ⟨g, hg, he⟩
    have hge : groupOf l s = [] := by
      unfold groupOf
      rw [List.map_eq_nil_iff, List.filter_eq_nil_iff]
      intro r hr hrs
      obtain ⟨g, hg, hgs⟩ := g3 r hr
      exact hno g hg (hgs.trans (of_decide_eq_true hrs))
    refine ⟨[], [], ?_, ⟨fun _ => Nat.zero_le _, fun x h => (by cases h), fun x h => (by cases h)⟩, k1 hno⟩
    rw [hge]
    exact List.Perm.refl _

/-! ### C135 -/

/-- Filter lists in order. -/
def SortedKeys (fs : List (S × T)) : Prop := fs.Pairwise fun a b => a.1 < b.1 ∨ (a.1 = b.1 ∧ a.2 < b.2)

/-- The full property: filtering a table with a sorted list of pairs keeps exactly the records of those pairs. -/
def C135_full : Prop :=
  ∀ (l : List (Rec Nat Nat)) (fs : List (Nat × Nat)), l.Pairwise kLt → SortedKeys fs →
    filter l fs = l.filter fun r => decide ((r.s, r.t) ∈ fs)

theorem C135_counterexample : ¬ C135_full := by
  intro h
  have := h [⟨1, 2, 1, 2⟩, ⟨1, 3, 1, 2⟩] [(1, 1), (1, 2)] (by
    refine List.pairwise_cons.2 ⟨?_, List.pairwise_singleton _ _⟩
    intro a ha
    rw [List.mem_singleton.1 ha]
    exact Or.inr ⟨rfl, by decide⟩) (by
    refine List.pairwise_cons.2 ⟨?_, List.pairwise_singleton _ _⟩
    intro a ha
    rw [List.mem_singleton.1 ha]
    exact Or.inr ⟨rfl, by decide⟩)
  revert this
  decide +kernel

/-- C135 (partial: every pair of the list has a record in the table): then exactly those records are kept. -/
theorem C135_present_partial (l : List (Rec S T)) (fs : List (S × T)) (hl : l.Pairwise kLt) (hf : SortedKeys fs)
    (hp : ∀ f ∈ fs, ∃ r ∈ l, (r.s, r.t) = f) : filter l fs = l.filter fun r => decide ((r.s, r.t) ∈ fs) := by
  induction l generalizing fs with
  | nil =>
    cases fs with
    | nil => rfl
    | cons f fs => obtain ⟨r, hr, _⟩ := hp f List.mem_cons_self; cases hr
  | cons r l ih =>
    obtain ⟨l1, l2⟩ := List.pairwise_cons.1 hl
    cases fs with
    | nil =>
      symm
      rw [show filter (r :: l) [] = [] from rfl, List.filter_eq_nil_iff]
      intro x _ h
      have := of_decide_eq_true h
      cases this
    | cons f fs =>
      obtain ⟨f1, f2⟩ := List.pairwise_cons.1 hf
      by_cases hc : r.s = f.1 ∧ r.t = f.2
      · have e : filter (r :: l) (f :: fs) = r :: filter l fs := if_pos hc
        have hrf : (r.s, r.t) = f := Prod.ext hc.1 hc.2
        rw [e, List.filter_cons_of_pos (by rw [hrf]; exact decide_eq_true List.mem_cons_self)]
        congr 1
        rw [ih fs l2 f2 (by
          intro f' hf'
          obtain ⟨r', hr', hrf'⟩ := hp f' (List.mem_cons_of_mem _ hf')
          rcases List.mem_cons.1 hr' with rfl | hr'
          · exfalso
            have := f1 f' hf'
            rw [← hrf', ← hrf] at this
            rcases this with h | ⟨_, h⟩ <;> exact lt_irrefl _ h
          · exact ⟨r', hr', hrf'⟩)]
        apply List.filter_congr
        intro x hx
        have hne : (x.s, x.t) ≠ f := by
          intro h
          have := l1 x hx
          rw [← hrf] at h
          obtain ⟨h1, h2⟩ := Prod.mk.inj h
          rcases this with h | ⟨_, h⟩
          · rw [h1] at h; exact lt_irrefl _ h
          · rw [h2] at h; exact lt_irrefl _ h
        simp only [List.mem_cons, hne, false_or]
      · have e : filter (r :: l) (f :: fs) = filter l (f :: fs) := if_neg hc
        obtain ⟨r0, hr0, hr0f⟩ := hp f List.mem_cons_self
        have hr0l : r0 ∈ l := by
          rcases List.mem_cons.1 hr0 with rfl | h
          · exact absurd ⟨congrArg Prod.fst hr0f, congrArg Prod.snd hr0f⟩ hc
          · exact h
        have hrlt := l1 r0 hr0l
        have hnot : (r.s, r.t) ∉ f :: fs := by
          intro hm
          rcases List.mem_cons.1 hm with h | h
          · exact hc ⟨congrArg Prod.fst h, congrArg Prod.snd h⟩
          · have h' := f1 _ h
            have hlt' : kLt r0 r := by
              rw [← hr0f] at h'
              exact h'
            exact kLt_irrefl _ (kLt_trans hrlt hlt')
        rw [e, List.filter_cons_of_neg (by simpa using hnot)]
        apply ih (f :: fs) l2 hf
        intro f' hf'
        obtain ⟨r', hr', hrf'⟩ := hp f' hf'
        rcases List.mem_cons.1 hr' with rfl | hr'
        · rw [hrf'] at hnot; exact absurd hf' hnot
        · exact ⟨r', hr', hrf'⟩

end Thot.LexMerge
