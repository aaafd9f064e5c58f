/-!
Finite maps as association lists with distinct keys: the abstract behaviour of `std::map` / `hash_map` when only
look-up, assignment `m[k]=v`, `erase` and `size` matter (no iteration order).
-/
namespace Thot.AMap

variable {K V : Type} [DecidableEq K]

/-- `m.find(k)`. -/
def lk (m : List (K × V)) (k : K) : Option V :=
  match m with
  | [] => none
  | e :: r => if e.1 = k then some e.2 else lk r k

/-- `m[k]=v`. -/
def put (m : List (K × V)) (k : K) (v : V) : List (K × V) :=
  match m with
  | [] => [(k, v)]
  | e :: r => if e.1 = k then (k, v) :: r else e :: put r k v

/-- `m.erase(k)`. -/
def del (m : List (K × V)) (k : K) : List (K × V) :=
  match m with
  | [] => []
  | e :: r => if e.1 = k then r else e :: del r k

/-- Keys are distinct. -/
def Distinct (m : List (K × V)) : Prop := (m.map Prod.fst).Nodup

theorem lk_put (m : List (K × V)) (k : K) (v : V) (k' : K) :
    lk (put m k v) k' = if k' = k then some v else lk m k' := by
  induction m with
  | nil => simp [lk, put]; grind
  | cons e r ih =>
    rw [put]
    split <;> rename_i h
    · simp only [lk]; grind
    · simp only [lk, ih]; grind

@[simp] theorem lk_put_self (m : List (K × V)) (k : K) (v : V) : lk (put m k v) k = some v := by simp [lk_put]

theorem lk_put_ne (m : List (K × V)) {k k' : K} (v : V) (h : k' ≠ k) : lk (put m k v) k' = lk m k' := by
  simp [lk_put, h]

theorem lk_none_iff {m : List (K × V)} {k : K} : lk m k = none ↔ k ∉ m.map Prod.fst := by
  induction m with
  | nil => simp [lk]
  | cons e r ih => rw [lk]; split <;> simp_all; grind

theorem lk_some_iff {m : List (K × V)} (h : Distinct m) {k : K} {v : V} : lk m k = some v ↔ (k, v) ∈ m := by
  induction m with
  | nil => simp [lk]
  | cons e r ih =>
    obtain ⟨h1, h2⟩ := List.nodup_cons.1 h
    rw [lk]
    split <;> rename_i hk
    · subst hk
      constructor
      · intro h; injection h with h; subst h; exact List.mem_cons_self
      · intro hm
        rcases List.mem_cons.1 hm with he | hm
        · rw [← he]
        · exact absurd (List.mem_map_of_mem (f := Prod.fst) hm) h1
    · rw [ih h2]
      constructor
      · exact fun h => List.mem_cons_of_mem _ h
      · intro hm
        rcases List.mem_cons.1 hm with he | hm
        · exact absurd (by rw [← he]) hk
        · exact hm

theorem put_of_none {m : List (K × V)} {k : K} (v : V) (h : lk m k = none) : put m k v = m ++ [(k, v)] := by
  induction m with
  | nil => rfl
  | cons e r ih =>
    rw [lk] at h
    split at h
    · cases h
    · rename_i hk
      rw [put, if_neg hk, ih h]; rfl

theorem keys_put_of_some {m : List (K × V)} {k : K} {w : V} (v : V) (h : lk m k = some w) :
    (put m k v).map Prod.fst = m.map Prod.fst := by
  induction m with
  | nil => simp [lk] at h
  | cons e r ih =>
    rw [lk] at h
    rw [put]
    split <;> rename_i hk
    · simp [hk]
    · rw [if_neg hk] at h
      simp [ih h]

theorem length_put (m : List (K × V)) (k : K) (v : V) :
    (put m k v).length = if (lk m k).isSome then m.length else m.length + 1 := by
  cases h : lk m k with
  | none => rw [put_of_none v h]; simp
  | some w => simpa using congrArg List.length (keys_put_of_some v h)

theorem distinct_put {m : List (K × V)} (h : Distinct m) (k : K) (v : V) : Distinct (put m k v) := by
  cases hg : lk m k with
  | none =>
    rw [put_of_none v hg]
    unfold Distinct
    rw [List.map_append, List.nodup_append]
    refine ⟨h, by simp, ?_⟩
    intro a ha b hb
    have := lk_none_iff.1 hg
    simp only [List.map_cons, List.map_nil, List.mem_singleton] at hb
    subst hb
    intro he; subst he; exact this ha
  | some w => unfold Distinct; rw [keys_put_of_some v hg]; exact h

theorem lk_del {m : List (K × V)} (h : Distinct m) (k k' : K) :
    lk (del m k) k' = if k' = k then none else lk m k' := by
  induction m with
  | nil => simp [del, lk]
  | cons e r ih =>
    obtain ⟨h1, h2⟩ := List.nodup_cons.1 h
    rw [del]
    split <;> rename_i hk
    · subst hk
      split <;> rename_i hk'
      · subst hk'; exact lk_none_iff.2 h1
      · rw [lk, if_neg (fun h => hk' h.symm)]
    · rw [lk, ih h2, lk]
      grind

theorem keys_del_sublist (m : List (K × V)) (k : K) : ((del m k).map Prod.fst).Sublist (m.map Prod.fst) := by
  induction m with
  | nil => exact List.Sublist.refl _
  | cons e r ih =>
    rw [del]
    split
    · exact List.sublist_cons_self _ _
    · exact ih.cons_cons _

theorem distinct_del {m : List (K × V)} (h : Distinct m) (k : K) : Distinct (del m k) :=
  List.Nodup.sublist (keys_del_sublist m k) h

theorem distinct_nil : Distinct ([] : List (K × V)) := List.nodup_nil

/-- Maps with distinct keys and the same look-ups have the same entries. -/
theorem perm_of_lk {m m' : List (K × V)} (h : Distinct m) (h' : Distinct m') (he : ∀ k, lk m k = lk m' k) :
    m.Perm m' := by
  have nd : ∀ {m : List (K × V)}, Distinct m → m.Nodup := by
    intro m h
    unfold Distinct List.Nodup at h
    rw [List.pairwise_map] at h
    exact List.Pairwise.imp (fun h he => h (by rw [he])) h
  rw [List.perm_ext_iff_of_nodup (nd h) (nd h')]
  intro e
  rw [← lk_some_iff h, ← lk_some_iff h', he]

theorem lk_eq_of_perm {m m' : List (K × V)} (h : m.Perm m') (hd : Distinct m) (k : K) :
    lk m k = lk m' k := by
  have hd' : Distinct m' := (h.map Prod.fst).nodup_iff.1 hd
  cases hg : lk m' k with
  | none =>
    rw [lk_none_iff] at hg ⊢
    intro hm; exact hg ((h.map Prod.fst).subset hm)
  | some v =>
    rw [lk_some_iff hd'] at hg
    rw [lk_some_iff hd]
    exact h.symm.subset hg

end Thot.AMap
