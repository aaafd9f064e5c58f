/-!
`std::multimap<Score,V,greater>` / `std::multiset` with a descending order: the trusted library behaviour is
that elements are kept sorted by decreasing key and that `insert` puts a new element after all elements with an
equivalent key (C++11 [associative.reqmts]).  Scores are finite doubles; only comparisons are used here and
the finite doubles embed order-isomorphically into `Int`.
-/
namespace Thot.MMap

variable {α : Type}

/-- `multimap::insert` at the upper bound of its key. -/
def ins (s : Int) (v : α) : List (Int × α) → List (Int × α)
  | [] => [(s, v)]
  | e :: r => if s > e.1 then (s, v) :: e :: r else e :: ins s v r

/-- Iteration order is non-increasing in the key. -/
def Desc (t : List (Int × α)) : Prop := t.Pairwise (fun a b => b.1 ≤ a.1)

/-- The elements with key `k`, in order. -/
def atKey (k : Int) (t : List (Int × α)) : List (Int × α) := t.filter (fun e => e.1 == k)

theorem mem_ins {s : Int} {v : α} {t : List (Int × α)} {x : Int × α} : x ∈ ins s v t ↔ x = (s, v) ∨ x ∈ t := by
  induction t with
  | nil => simp [ins]
  | cons e r ih =>
    rw [ins]
    split
    · simp
    · simp only [List.mem_cons, ih]; grind

theorem perm_ins (s : Int) (v : α) (t : List (Int × α)) : (ins s v t).Perm ((s, v) :: t) := by
  induction t with
  | nil => exact .refl _
  | cons e r ih =>
    rw [ins]
    split
    · exact .refl _
    · exact (List.Perm.cons e ih).trans (List.Perm.swap _ _ _)

theorem length_ins (s : Int) (v : α) (t : List (Int × α)) : (ins s v t).length = t.length + 1 := by
  simpa using (perm_ins s v t).length_eq

theorem desc_ins {s : Int} {v : α} {t : List (Int × α)} (h : Desc t) : Desc (ins s v t) := by
  induction t with
  | nil => simp [ins, Desc]
  | cons e r ih =>
    unfold Desc at h
    obtain ⟨h1, h2⟩ := List.pairwise_cons.1 h
    rw [ins]
    split <;> rename_i hs
    · refine List.pairwise_cons.2 ⟨?_, h⟩
      intro x hx
      rcases List.mem_cons.1 hx with rfl | hx
      · simp only; omega
      · have := h1 x hx; simp only; omega
    · refine List.pairwise_cons.2 ⟨?_, ih h2⟩
      intro x hx
      rcases mem_ins.1 hx with rfl | hx
      · simp only; omega
      · exact h1 x hx

theorem atKey_ins {s : Int} {v : α} {t : List (Int × α)} (h : Desc t) (k : Int) :
    atKey k (ins s v t) = atKey k t ++ (if s = k then [(s, v)] else []) := by
  unfold atKey
  induction t with
  | nil => by_cases hs : s = k <;> simp [ins, hs]
  | cons e r ih =>
    obtain ⟨h1, h2⟩ := List.pairwise_cons.1 h
    rw [ins]
    split <;> rename_i hs
    · by_cases hk : s = k
      · subst hk
        have : ∀ x ∈ e :: r, ¬ (x.1 == s) = true := by
          intro x hx
          rcases List.mem_cons.1 hx with rfl | hx
          · simp; omega
          · have := h1 x hx; simp; omega
        rw [List.filter_cons_of_pos (by simp), List.filter_eq_nil_iff.2 this]
        simp
      · rw [List.filter_cons_of_neg (by simpa using hk)]
        simp [hk]
    · rw [List.filter_cons, ih h2, List.filter_cons]
      split <;> simp

/-- Two descending lists with the same elements per key, in the same order, are equal: descending order plus
stability determines the multimap. -/
theorem Desc.ext {t u : List (Int × α)} (ht : Desc t) (hu : Desc u) (h : ∀ k, atKey k t = atKey k u) : t = u := by
  induction t generalizing u with
  | nil =>
    cases u with
    | nil => rfl
    | cons e r => have := h e.1; simp [atKey] at this
  | cons d t ih =>
    cases u with
    | nil => have := h d.1; simp [atKey] at this
    | cons e r =>
      have hd : e.1 ≤ d.1 := by
        have : e ∈ atKey e.1 (d :: t) := by rw [h]; simp [atKey]
        rcases List.mem_cons.1 (List.mem_filter.1 this).1 with rfl | hm
        · omega
        · exact (List.pairwise_cons.1 ht).1 e hm
      have he : d.1 ≤ e.1 := by
        have : d ∈ atKey d.1 (e :: r) := by rw [← h]; simp [atKey]
        rcases List.mem_cons.1 (List.mem_filter.1 this).1 with rfl | hm
        · omega
        · exact (List.pairwise_cons.1 hu).1 d hm
      have hde : d.1 = e.1 := by omega
      have h0 := h d.1
      unfold atKey at h0
      rw [List.filter_cons_of_pos (by simp), List.filter_cons_of_pos (by simp [hde])] at h0
      obtain ⟨rfl, h0⟩ := List.cons.inj h0
      congr 1
      refine ih (List.pairwise_cons.1 ht).2 (List.pairwise_cons.1 hu).2 fun k => ?_
      have hk := h k
      unfold atKey at hk ⊢
      by_cases hkd : d.1 = k
      · rw [List.filter_cons_of_pos (by simp [hkd]), List.filter_cons_of_pos (by simp [hkd])] at hk
        exact (List.cons.inj hk).2
      · rw [List.filter_cons_of_neg (by simpa using hkd), List.filter_cons_of_neg (by simpa using hkd)] at hk
        exact hk

/-- Successive insertions. -/
def insAll (t xs : List (Int × α)) : List (Int × α) := xs.foldl (fun t e => ins e.1 e.2 t) t

theorem desc_insAll {t : List (Int × α)} (h : Desc t) (xs : List (Int × α)) : Desc (insAll t xs) := by
  induction xs generalizing t with
  | nil => exact h
  | cons x xs ih => exact ih (desc_ins h)

theorem atKey_insAll {t : List (Int × α)} (h : Desc t) (xs : List (Int × α)) (k : Int) :
    atKey k (insAll t xs) = atKey k t ++ atKey k xs := by
  induction xs generalizing t with
  | nil => simp [insAll, atKey]
  | cons x xs ih =>
    have := ih (desc_ins (s := x.1) (v := x.2) h)
    rw [atKey_ins h] at this
    show atKey k (insAll (ins x.1 x.2 t) xs) = _
    rw [this]
    unfold atKey
    rw [List.filter_cons]
    by_cases hx : x.1 = k
    · subst hx; simp
    · simp [hx]

theorem perm_insAll (t xs : List (Int × α)) : (insAll t xs).Perm (xs ++ t) := by
  induction xs generalizing t with
  | nil => exact .refl _
  | cons x xs ih =>
    refine (ih _).trans ?_
    refine ((perm_ins x.1 x.2 t).append_left xs).trans ?_
    exact List.perm_middle

end Thot.MMap
