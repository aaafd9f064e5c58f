import Verif.TextTools.Model
/-!
C275: merging text tables of counts.
-/
set_option linter.unusedSectionVars false

namespace Thot.TextTools

open Thot Thot.Sum
open Thot.LexMerge (Rec Ent Table numOf denOf kLt)

variable {S T : Type} [LinearOrder S] [LinearOrder T]

/-! ### Specification -/

/-- The lines of `k` tables with the number of their table. -/
def tagged (files : Nat → List (Rec S T)) (k : Nat) : List (Ent S T) :=
  (List.range k).flatMap fun i => (files i).map fun r => ⟨r, i⟩

/-- Lines sorted by source and target, in any order if equal. -/
def SortedEnts (es : List (Ent S T)) : Prop :=
  es.Pairwise fun a b => ¬ (b.r.s < a.r.s ∨ (b.r.s = a.r.s ∧ b.r.t < a.r.t))

/-- The merged table has one line for each pair of some table, with the sum of its counts and the sum of the counts of its source. -/
def MergedTo (files : Nat → List (Rec S T)) (k : Nat) (out : List (Out S T)) : Prop :=
  ∃ o : List (Rec S T), out = o.map Out.record ∧ Table o ∧ ∀ s t n d, (⟨s, t, n, d⟩ : Rec S T) ∈ o ↔
    (∃ i, i < k ∧ ∃ r ∈ files i, r.s = s ∧ r.t = t) ∧
    n = sumBy (fun i => numOf (files i) s t) (List.range k) ∧ d = sumBy (fun i => denOf (files i) s) (List.range k)

/-- Full statement of C275. -/
def C275_full : Prop := ∀ (files : Nat → List (Rec Nat Nat)) (k : Nat), (∀ i, i < k → Table (files i)) →
  ∀ es, es.Perm (tagged files k) → SortedEnts es → MergedTo files k (mergeText es)

/-! ### Proof -/

theorem pcIter_eq (s : S) (lc : Rat) (x : T × Rat) (st : T × Rat × List (Rec S T)) :
    pcIter s lc (st.1, st.2.1, st.2.2.map Out.record) x =
      ((LexMerge.pcStep s lc st x).1, (LexMerge.pcStep s lc st x).2.1, (LexMerge.pcStep s lc st x).2.2.map Out.record) := by
  unfold pcIter LexMerge.pcStep
  dsimp only
  by_cases h : st.1 = x.1
  · rw [if_pos h, if_pos h]
  · rw [if_neg h, if_neg h]; simp

theorem pc_fold (s : S) (lc : Rat) : ∀ (l : List (T × Rat)) (st : T × Rat × List (Rec S T)),
    l.foldl (pcIter s lc) (st.1, st.2.1, st.2.2.map Out.record) =
      ((l.foldl (LexMerge.pcStep s lc) st).1, (l.foldl (LexMerge.pcStep s lc) st).2.1, (l.foldl (LexMerge.pcStep s lc) st).2.2.map Out.record) := by
  intro l
  induction l with
  | nil => intro st; rfl
  | cons x l ih => intro st; rw [List.foldl_cons, List.foldl_cons, pcIter_eq, ih]

theorem print_eq (s : S) (x : T × Rat) (l : List (T × Rat)) (lc : Rat) :
    ∃ p, LexMerge.printCounts s (x :: l) lc = some p ∧ printCounts (some s) (x :: l) lc = p.map Out.record := by
  refine ⟨_, rfl, ?_⟩
  show (l.foldl (pcIter s lc) (x.1, x.2, [])).2.2 ++ [Out.record ⟨s, (l.foldl (pcIter s lc) (x.1, x.2, [])).1,
    (l.foldl (pcIter s lc) (x.1, x.2, [])).2.1, lc⟩] = _
  have := pc_fold s lc l (x.1, x.2, [])
  rw [List.map_nil] at this
  rw [this]
  simp

/-- The states of the two programs. -/
structure Rel (st : LexMerge.St S T) (m : MSt S T) : Prop where
  src : st.src = m.src
  lc : st.lc = m.lc
  grp : st.grp = m.grp
  chunks : st.chunks = m.chunks
  ne : (m.src = none ∧ m.grp = []) ∨ (m.src ≠ none ∧ m.grp ≠ [])
  out : ∃ o, st.out = some o ∧ m.out = o.map Out.record

theorem chunk_eq (st : LexMerge.St S T) (m : MSt S T) (e : Ent S T) (h : Rel st m) :
    Rel (if e.id ∈ st.chunks then st else { st with chunks := e.id :: st.chunks, lc := st.lc + e.r.den })
      (if e.id ∈ m.chunks then m else { m with chunks := e.id :: m.chunks, lc := m.lc + e.r.den }) := by
  by_cases hc : e.id ∈ m.chunks
  · rw [if_pos hc, if_pos (h.chunks ▸ hc)]; exact h
  · rw [if_neg hc, if_neg (h.chunks ▸ hc)]
    exact ⟨h.src, by show st.lc + _ = m.lc + _; rw [h.lc], h.grp, by show _ :: st.chunks = _ :: m.chunks; rw [h.chunks], h.ne, h.out⟩

theorem group_rel (st : LexMerge.St S T) (m : MSt S T) (e : Ent S T) (h : Rel st m) : Rel (LexMerge.group st e) (mGroup m e) := by
  obtain ⟨o, ho, hmo⟩ := h.out
  rcases h.ne with ⟨h1, h2⟩ | ⟨h1, h2⟩
  · have hs : st.src = none := h.src.trans h1
    have hg : st.grp = [] := h.grp.trans h2
    unfold mGroup LexMerge.group
    rw [hs, h1]
    exact ⟨rfl, h.lc, by show st.grp ++ _ = _; rw [hg]; rfl, h.chunks, Or.inr ⟨by simp, by simp⟩, o, ho, hmo⟩
  · obtain ⟨s, hs⟩ := Option.ne_none_iff_exists'.1 h1
    have hss : st.src = some s := h.src.trans hs
    obtain ⟨x, l, hx⟩ := List.exists_cons_of_ne_nil h2
    unfold mGroup LexMerge.group
    rw [hss, hs]
    by_cases hne : s ≠ e.r.s
    · obtain ⟨p, p1, p2⟩ := print_eq s x l m.lc
      simp only
      rw [if_pos hne, if_pos hne]
      refine ⟨rfl, rfl, rfl, rfl, Or.inr ⟨by simp, by simp⟩, o ++ p, ?_, ?_⟩
      · show LexMerge.append st.out (LexMerge.printCounts s st.grp st.lc) = _
        rw [h.grp, hx, h.lc, p1, ho]; rfl
      · show m.out ++ printCounts (some s) m.grp m.lc = _
        rw [hx, p2, hmo, List.map_append]
    · simp only
      rw [if_neg hne, if_neg hne]
      exact ⟨rfl, h.lc, by show st.grp ++ _ = m.grp ++ _; rw [h.grp], h.chunks, Or.inr ⟨by simp, by simp⟩, o, ho, hmo⟩

theorem step_rel (st : LexMerge.St S T) (m : MSt S T) (e : Ent S T) (h : Rel st m) : Rel (LexMerge.step st e) (mStep m e) :=
  chunk_eq _ _ e (group_rel st m e h)

theorem fold_rel : ∀ (es : List (Ent S T)) (st : LexMerge.St S T) (m : MSt S T), Rel st m → Rel (es.foldl LexMerge.step st) (es.foldl mStep m) := by
  intro es
  induction es with
  | nil => intro st m h; exact h
  | cons e es ih => intro st m h; exact ih _ _ (step_rel st m e h)

theorem finish_rel (st : LexMerge.St S T) (m : MSt S T) (h : Rel st m) {o : List (Rec S T)} (ho : LexMerge.finish st = some o) :
    m.out ++ printCounts m.src m.grp m.lc = o.map Out.record := by
  obtain ⟨p, hp, hmp⟩ := h.out
  unfold LexMerge.finish at ho
  rcases h.ne with ⟨h1, h2⟩ | ⟨h1, h2⟩
  · rw [h.src.trans h1, hp] at ho; cases ho
  · obtain ⟨s, hs⟩ := Option.ne_none_iff_exists'.1 h1
    obtain ⟨x, l, hx⟩ := List.exists_cons_of_ne_nil h2
    obtain ⟨q, q1, q2⟩ := print_eq s x l m.lc
    rw [h.src.trans hs, hp] at ho
    dsimp only at ho
    rw [h.grp, hx, h.lc, q1] at ho
    cases ho
    rw [hs, hx, q2, hmp, List.map_append]

/-- **C275 (partial).** The merged table has exactly one line for each pair of events of the tables, in order; its count is the sum of the
counts of the pair, and the count of its source is the sum of those of the source in the tables that have it. Missing: if all tables are
empty, a line without words is printed (counterexample). -/
theorem C275_merge_partial (files : Nat → List (Rec S T)) (k : Nat) (hf : ∀ i, i < k → Table (files i))
    (hne : ∃ i, i < k ∧ files i ≠ []) (es : List (Ent S T)) (hp : es.Perm (tagged files k)) (hs : SortedEnts es) :
    MergedTo files k (mergeText es) := by
  obtain ⟨o, h1, h2, h3⟩ := LexMerge.merge_core files k hf hne es hp hs
  refine ⟨o, ?_, h2, h3⟩
  have hr : Rel (LexMerge.St.init : LexMerge.St S T) ⟨none, 0, [], [], []⟩ :=
    ⟨rfl, rfl, rfl, rfl, Or.inl ⟨rfl, rfl⟩, [], rfl, rfl⟩
  exact finish_rel _ _ (fold_rel es _ _ hr) h1

/-- **C275 is false of the code**: of empty tables a line is printed. -/
theorem C275_counterexample : ¬ C275_full := by
  intro h
  obtain ⟨o, h1, _⟩ := h (fun _ => []) 0 (by intro i hi; omega) [] (List.Perm.refl _) List.Pairwise.nil
  have : (mergeText ([] : List (Ent Nat Nat))) = [Out.blank] := rfl
  rw [this] at h1
  cases o with
  | nil => cases h1
  | cons r o => cases h1

/-- The hypotheses are met by two tables with a common pair. -/
example : MergedTo (fun i => if i = 0 then [⟨1, 2, 3, 3⟩] else [⟨1, 2, 1, 5⟩, ⟨1, 4, 4, 5⟩]) 2
    (mergeText ([⟨⟨1, 2, 3, 3⟩, 0⟩, ⟨⟨1, 2, 1, 5⟩, 1⟩, ⟨⟨1, 4, 4, 5⟩, 1⟩] : List (Ent Nat Nat))) := by
  apply C275_merge_partial
  · intro i hi
    match i with
    | 0 => exact ⟨List.pairwise_singleton _ _, by decide⟩
    | 1 =>
      refine ⟨?_, by decide⟩
      rw [if_neg (by decide), List.pairwise_pair]
      exact Or.inr ⟨rfl, by decide⟩
  · exact ⟨0, by decide, by simp⟩
  · exact List.Perm.refl _
  · unfold SortedEnts; decide

end Thot.TextTools
