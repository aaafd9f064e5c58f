import Verif.Nbest.Model
/-!
C18 (N-best table) and C40 (`stableSort` gives a canonical order).
Specification predicates used in the statements: `MMap.Desc` (non-increasing scores), `MMap.atKey k` (the
sub-list of elements with score `k`) and `List.Perm`.
-/
namespace Thot.Nbest
open MMap

variable {α : Type}

/-- The table obtained from the empty one by inserting `xs` in order. -/
def fill (xs : List (Int × α)) : Table α := xs.foldl (fun t e => insert t e.1 e.2) []

theorem fill_eq (xs : List (Int × α)) : fill xs = insAll [] xs := rfl

/-- **C18.** After any insertions: scores are non-increasing along iteration, the elements are exactly those
inserted, and those with equal score are in insertion order. -/
theorem C18_fill (xs : List (Int × α)) :
    (fill xs).Pairwise (fun a b => b.1 ≤ a.1) ∧ (fill xs).Perm xs ∧
    (∀ k, (fill xs).filter (fun e => e.1 == k) = xs.filter (fun e => e.1 == k)) ∧
    size (fill xs) = xs.length := by
  have h0 : Desc ([] : Table α) := by simp [Desc]
  refine ⟨desc_insAll h0 xs, by simpa [fill_eq] using perm_insAll [] xs, ?_, ?_⟩
  · intro k
    have := atKey_insAll h0 xs k
    simpa [atKey, fill_eq] using this
  · have := (perm_insAll ([] : Table α) xs).length_eq
    simpa [size, fill_eq] using this

/-- **C18.** These three facts determine the table. -/
theorem C18_fill_unique (xs : List (Int × α)) (t : Table α) (h1 : t.Pairwise (fun a b => b.1 ≤ a.1))
    (h2 : ∀ k, t.filter (fun e => e.1 == k) = xs.filter (fun e => e.1 == k)) : t = fill xs :=
  Desc.ext h1 (C18_fill xs).1 fun k => (h2 k).trans ((C18_fill xs).2.2.1 k).symm

example : fill [(1, 'a'), (3, 'b'), (1, 'c'), (3, 'd')] = [(3, 'b'), (3, 'd'), (1, 'a'), (1, 'c')] := by decide

theorem desc_sublist {t u : Table α} (h : u.Sublist t) (ht : Desc t) : Desc u := List.Pairwise.sublist h ht

/-- **C18.** `getBestElem`/`getScoreOfBestElem` return the first inserted among the elements of highest score. -/
theorem C18_best (dflt : α) (xs : List (Int × α)) (hne : xs ≠ []) :
    ∃ s v, getBestElem dflt (fill xs) = v ∧ getScoreOfBestElem (fill xs) = s ∧
      (∀ e ∈ xs, e.1 ≤ s) ∧ (xs.find? (fun e => e.1 == s)) = some (s, v) := by
  obtain ⟨h1, h2, h3, _⟩ := C18_fill xs
  cases hf : fill xs with
  | nil => rw [hf] at h2; exact absurd h2.symm.eq_nil hne
  | cons e r =>
    refine ⟨e.1, e.2, rfl, rfl, ?_, ?_⟩
    · intro x hx
      have hx' := h2.symm.subset hx
      rw [hf] at hx' h1
      rcases List.mem_cons.1 hx' with rfl | hm
      · omega
      · exact (List.pairwise_cons.1 h1).1 x hm
    · have := h3 e.1
      rw [hf, List.filter_cons_of_pos (by simp)] at this
      have h := congrArg List.head? this
      rw [List.head?_filter] at h
      simpa using h.symm

theorem C18_best_empty (dflt : α) :
    getBestElem dflt (fill []) = dflt ∧ getScoreOfBestElem (fill ([] : List (Int × α))) = 0 := ⟨rfl, rfl⟩

/-- `removeLastElement`: drops the last element; undefined for fewer than two elements (decrement of
`begin()`). -/
theorem removeLast_spec (t : Table α) : removeLastElement t = if 2 ≤ t.length then some t.dropLast else none := rfl

theorem trimTo_eq (n : Nat) (hn : 1 ≤ n) (fuel : Nat) (t : Table α) (hf : t.length < fuel) :
    trimTo n fuel t = some (t.take n) := by
  induction fuel generalizing t with
  | zero => omega
  | succ fuel ih =>
    rw [trimTo]
    unfold size
    split <;> rename_i h
    · rw [removeLast_spec, if_pos (by omega), Option.bind_some, ih _ (by simp; omega)]
      rw [List.dropLast_eq_take, List.take_take]; congr 2; omega
    · rw [List.take_of_length_le (by omega)]

/-- **C18.** Removing the last element while the table has more than `n ≥ 1` elements ends, without
undefined behaviour, with `n` highest-scored elements (all of them if fewer), still in order; on equal scores the
earlier inserted survive (the result is an initial segment of the iteration order of C18_fill). -/
theorem C18_keep_best (xs : List (Int × α)) (n : Nat) (hn : 1 ≤ n) :
    ∃ kept dropped, (∀ fuel, xs.length < fuel → trimTo n fuel (fill xs) = some kept) ∧
      fill xs = kept ++ dropped ∧ kept.length = min n xs.length ∧ xs.Perm (kept ++ dropped) ∧
      ∀ a ∈ kept, ∀ b ∈ dropped, b.1 ≤ a.1 := by
  obtain ⟨h1, h2, _, h4⟩ := C18_fill xs
  refine ⟨(fill xs).take n, (fill xs).drop n, ?_, (List.take_append_drop _ _).symm, ?_, ?_, ?_⟩
  · intro fuel hf
    exact trimTo_eq n hn fuel _ (by unfold size at h4; omega)
  · unfold size at h4; rw [List.length_take, h4]
  · rw [List.take_append_drop]; exact h2.symm
  · rw [← List.take_append_drop n (fill xs)] at h1
    exact (List.pairwise_append.1 h1).2.2

/-- **C18, n = 0.** Trimming a non-empty table to nothing reaches the undefined decrement. -/
theorem C18_trim_to_zero (t : Table α) (hne : t ≠ []) (fuel : Nat) : trimTo 0 fuel t = none := by
  induction fuel generalizing t with
  | zero => rfl
  | succ fuel ih =>
    rw [trimTo]
    have : 0 < t.length := List.length_pos_iff.2 hne
    unfold size
    rw [if_pos (by omega), removeLast_spec]
    split
    · rename_i h
      rw [Option.bind_some]
      exact ih _ (by intro h0; have := congrArg List.length h0; simp at this; omega)
    · rfl

theorem pruneLoop_spec (thr : Int) (l : List (Int × α)) (h : l.Pairwise (fun a b => a.1 ≤ b.1)) :
    pruneLoop thr l = if l = [] ∨ ∃ e ∈ l, thr ≤ e.1 then some (l.filter (fun e => decide (thr ≤ e.1))) else none := by
  induction l with
  | nil => simp [pruneLoop]
  | cons e r ih =>
    obtain ⟨h1, h2⟩ := List.pairwise_cons.1 h
    unfold pruneLoop
    split <;> rename_i he
    · cases r with
      | nil => rw [if_neg]; simp; omega
      | cons d r =>
        simp only
        rw [ih h2, List.filter_cons_of_neg (a := e) (by simp; omega)]
        have : ((d :: r = []) ∨ ∃ e ∈ d :: r, thr ≤ e.1) ↔ (e :: d :: r = [] ∨ ∃ x ∈ e :: d :: r, thr ≤ x.1) := by
          constructor
          · rintro (h | ⟨x, hx, hh⟩)
            · cases h
            · exact Or.inr ⟨x, List.mem_cons_of_mem _ hx, hh⟩
          · rintro (h | ⟨x, hx, hh⟩)
            · cases h
            · rcases List.mem_cons.1 hx with rfl | hx
              · omega
              · exact Or.inr ⟨x, hx, hh⟩
        simp only [this]
    · rw [if_pos (Or.inr ⟨e, List.mem_cons_self, by omega⟩), List.filter_eq_self.2]
      intro x hx
      rcases List.mem_cons.1 hx with rfl | hx
      · simp; omega
      · have := h1 x hx; simp; omega

/-- **C18.** `pruneGivenThreshold` keeps exactly the elements with score ≥ threshold, in order.
It is undefined (decrement of `begin()`) when the table is non-empty and nothing would be kept. -/
theorem C18_prune (t : Table α) (h : t.Pairwise (fun a b => b.1 ≤ a.1)) (thr : Int) :
    (t = [] ∨ (∃ e ∈ t, thr ≤ e.1) →
      pruneGivenThreshold t thr = some (t.filter (fun e => decide (thr ≤ e.1)))) ∧
    (t ≠ [] → (∀ e ∈ t, e.1 < thr) → pruneGivenThreshold t thr = none) := by
  have hr : t.reverse.Pairwise (fun a b => a.1 ≤ b.1) := by
    rw [List.pairwise_reverse]; exact h
  constructor
  · intro hc
    unfold pruneGivenThreshold
    split
    · rw [pruneLoop_spec thr _ hr, if_pos (by simpa using hc)]
      simp [List.filter_reverse]
    · rename_i h0
      have : t = [] := List.eq_nil_of_length_eq_zero (by omega)
      subst this; rfl
  · intro hne hall
    unfold pruneGivenThreshold
    rw [if_pos (List.length_pos_iff.2 hne), pruneLoop_spec thr _ hr, if_neg]
    · rfl
    · rintro (h0 | ⟨e, he, h1⟩)
      · exact hne (by simpa using h0)
      · have := hall e (by simpa using he); omega

/-- The hypothesis of `C18_prune` is met by every table reached by any sequence of calls. -/
theorem C18_always_sorted (le : α → α → Bool) (ops : List (Op α)) (t t' : Table α)
    (ht : t.Pairwise (fun a b => b.1 ≤ a.1)) (h : run le t ops = some t') :
    t'.Pairwise (fun a b => b.1 ≤ a.1) := by
  induction ops generalizing t with
  | nil => cases h; exact ht
  | cons o os ih =>
    rw [run] at h
    cases hs : step le t o with
    | none => rw [hs] at h; cases h
    | some u =>
      rw [hs] at h
      refine ih u ?_ h
      cases o with
      | insert s v => cases hs; exact desc_ins ht
      | removeLast =>
        simp only [step, removeLast_spec] at hs
        split at hs
        · cases hs; exact List.Pairwise.sublist (List.dropLast_sublist t) ht
        · cases hs
      | prune thr =>
        simp only [step] at hs
        by_cases hc : t = [] ∨ ∃ e ∈ t, thr ≤ e.1
        · rw [(C18_prune t ht thr).1 hc] at hs; cases hs
          exact List.Pairwise.sublist List.filter_sublist ht
        · rw [not_or] at hc
          rw [(C18_prune t ht thr).2 hc.1 (fun e he => by
            have := hc.2; rw [not_exists] at this
            have := this e; rw [not_and] at this
            have := this he; omega)] at hs
          cases hs
      | sort =>
        cases hs
        unfold stableSort
        simp only
        split
        · exact desc_insAll (by simp [Desc]) _
        · exact ht
      | clear => cases hs; exact List.Pairwise.nil

example : pruneGivenThreshold (fill [(1, 'a'), (3, 'b'), (2, 'c')]) 2 = some [(3, 'b'), (2, 'c')] := by decide
example : pruneGivenThreshold (fill [(1, 'a')]) 2 = none := by decide

/-! ## C40 -/

/-- A total order on the data. -/
structure TotalOrder (le : α → α → Bool) : Prop where
  total : ∀ a b, le a b = true ∨ le b a = true
  trans : ∀ a b c, le a b = true → le b c = true → le a c = true
  antisymm : ∀ a b, le a b = true → le b a = true → a = b

/-- Order established by `stableSort`: decreasing score, ties by increasing data. -/
def Canonical (le : α → α → Bool) (t : Table α) : Prop :=
  t.Pairwise (fun a b => b.1 < a.1 ∨ (a.1 = b.1 ∧ le a.2 b.2 = true))

theorem pairLe_trans {le : α → α → Bool} (h : TotalOrder le) (a b c : Int × α) :
    pairLe le a b = true → pairLe le b c = true → pairLe le a c = true := by
  unfold pairLe
  simp only [Bool.or_eq_true, decide_eq_true_eq, Bool.and_eq_true]
  rintro (h1 | ⟨h1, h1'⟩) (h2 | ⟨h2, h2'⟩)
  · left; omega
  · left; omega
  · left; omega
  · right; exact ⟨by omega, h.trans _ _ _ h1' h2'⟩

theorem pairLe_total {le : α → α → Bool} (h : TotalOrder le) (a b : Int × α) :
    (pairLe le a b || pairLe le b a) = true := by
  unfold pairLe
  simp only [Bool.or_eq_true, decide_eq_true_eq, Bool.and_eq_true]
  rcases h.total a.2 b.2 with h1 | h1 <;>
    rcases Int.lt_trichotomy a.1 b.1 with h2 | h2 | h2 <;> simp [h1, h2]

theorem stableSort_perm (le : α → α → Bool) (t : Table α) : (stableSort le t).Perm t := by
  unfold stableSort; simp only
  split
  · refine (perm_insAll _ _).trans ?_
    simpa using List.mergeSort_perm t (pairLe le)
  · exact .refl _

/-- A descending list whose per-score segments are sorted is canonical. -/
theorem canonical_of {le : α → α → Bool} {t : Table α} (h1 : Desc t)
    (h2 : ∀ k, (atKey k t).Pairwise (fun a b => le a.2 b.2 = true)) : Canonical le t := by
  induction t with
  | nil => exact List.Pairwise.nil
  | cons e t ih =>
    obtain ⟨g1, g2⟩ := List.pairwise_cons.1 h1
    refine List.pairwise_cons.2 ⟨?_, ih g2 fun k => ?_⟩
    · intro x hx
      have := g1 x hx
      by_cases hk : e.1 = x.1
      · right
        refine ⟨hk, ?_⟩
        have h := h2 e.1
        unfold atKey at h
        rw [List.filter_cons_of_pos (by simp)] at h
        exact (List.pairwise_cons.1 h).1 x (List.mem_filter.2 ⟨hx, by simp [hk]⟩)
      · left; omega
    · have h := h2 k
      unfold atKey at h ⊢
      rw [List.filter_cons] at h
      split at h
      · exact (List.pairwise_cons.1 h).2
      · exact h

/-- **C40.** `stableSort` permutes the table into decreasing score order with ties in increasing data order. -/
theorem C40_sorted {le : α → α → Bool} (hle : TotalOrder le) (t : Table α) :
    (stableSort le t).Perm t ∧ Canonical le (stableSort le t) := by
  refine ⟨stableSort_perm le t, ?_⟩
  have h0 : Desc ([] : Table α) := by simp [Desc]
  unfold stableSort; simp only
  split <;> rename_i hl
  · apply canonical_of (desc_insAll h0 _)
    intro k
    rw [atKey_insAll h0]
    have hs := List.pairwise_mergeSort (pairLe_trans hle) (pairLe_total hle) t
    have hs' := List.Pairwise.sublist (List.filter_sublist (p := fun e => e.1 == k)) hs
    have : atKey k ([] : Table α) ++ atKey k (t.mergeSort (pairLe le))
        = (t.mergeSort (pairLe le)).filter (fun e => e.1 == k) := by simp [atKey]
    rw [this]
    refine List.Pairwise.imp_of_mem ?_ hs'
    intro a b ha hb h
    have h1 : a.1 = k := by simpa using (List.mem_filter.1 ha).2
    have h2 : b.1 = k := by simpa using (List.mem_filter.1 hb).2
    unfold pairLe at h
    simp only [Bool.or_eq_true, decide_eq_true_eq, Bool.and_eq_true] at h
    rcases h with h | h
    · omega
    · exact h.2
  · have : t = [] := List.eq_nil_of_length_eq_zero (by omega)
    subst this; exact List.Pairwise.nil

/-- **C40.** The order after `stableSort` depends only on the elements, not on the order of insertion. -/
theorem C40_canonical {le : α → α → Bool} (hle : TotalOrder le) (xs ys : List (Int × α)) (h : xs.Perm ys) :
    stableSort le (fill xs) = stableSort le (fill ys) := by
  have hx := C40_sorted hle (fill xs)
  have hy := C40_sorted hle (fill ys)
  have hp : (stableSort le (fill xs)).Perm (stableSort le (fill ys)) :=
    hx.1.trans ((C18_fill xs).2.1.trans (h.trans ((C18_fill ys).2.1.symm.trans hy.1.symm)))
  refine hp.eq_of_pairwise ?_ hx.2 hy.2
  intro a b _ _ h1 h2
  rcases h1 with h1 | ⟨h1, h1'⟩ <;> rcases h2 with h2 | ⟨h2, h2'⟩
  · omega
  · omega
  · omega
  · exact Prod.ext h1 (hle.antisymm _ _ h1' h2')

/-- Non-vacuity: different insertion orders do give different iteration orders before `stableSort`. -/
example : fill [(1, 9), (1, 4), (5, 7)] ≠ fill [(5, 7), (1, 4), (1, 9)] ∧
    [(1, 9), (1, 4), (5, 7)].Perm [((5 : Int), 7), (1, 4), (1, 9)] := by
  constructor <;> decide
example : TotalOrder (fun (a b : Nat) => decide (a ≤ b)) :=
  ⟨fun a b => by simp; omega, fun a b c => by simp; omega, fun a b => by simp; omega⟩

end Thot.Nbest
