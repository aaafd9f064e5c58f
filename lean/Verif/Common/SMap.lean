import Mathlib.Data.List.Lex
import Mathlib.Data.Char

/-!
`std::map<K,V>` (and the key space of a LevelDB database): a list of pairs with strictly increasing keys. The trusted
library behaviour is look-up, `m[k]=v`, `insert` of an absent key and iteration in increasing order of the keys.
-/
namespace Thot.SMap

variable {K V : Type} [LinearOrder K]

/-- `m.find(k)`. -/
def get (m : List (K × V)) (k : K) : Option V :=
  match m with
  | [] => none
  | e :: r => if e.1 = k then some e.2 else get r k

/-- `m[k]=v`: inserts the key at its place or replaces the value. -/
def ins (m : List (K × V)) (k : K) (v : V) : List (K × V) :=
  match m with
  | [] => [(k, v)]
  | e :: r => if k < e.1 then (k, v) :: e :: r else if e.1 < k then e :: ins r k v else (k, v) :: r

/-- The keys in the order of iteration. -/
def keys (m : List (K × V)) : List K := m.map Prod.fst

/-- Keys strictly increase. -/
def Sorted (m : List (K × V)) : Prop := (keys m).Pairwise (· < ·)

theorem sorted_nil : Sorted ([] : List (K × V)) := List.Pairwise.nil

theorem mem_keys_ins (m : List (K × V)) (k : K) (v : V) (x : K) : x ∈ keys (ins m k v) ↔ x = k ∨ x ∈ keys m := by
  induction m with
  | nil => simp [ins, keys]
  | cons e r ih =>
    rw [ins]
    split
    · simp [keys]
    · split
      · rename_i h1 h2
        simp only [keys, List.map_cons, List.mem_cons] at ih ⊢
        rw [ih]
        constructor
        · rintro (h | h | h)
          · exact .inr (.inl h)
          · exact .inl h
          · exact .inr (.inr h)
        · rintro (h | h | h)
          · exact .inr (.inl h)
          · exact .inl h
          · exact .inr (.inr h)
      · rename_i h1 h2
        have he : e.1 = k := le_antisymm (not_lt.1 h1) (not_lt.1 h2)
        simp only [keys, List.map_cons, List.mem_cons, he, or_self_left]

theorem sorted_ins {m : List (K × V)} (h : Sorted m) (k : K) (v : V) : Sorted (ins m k v) := by
  induction m with
  | nil => simp [ins, Sorted, keys]
  | cons e r ih =>
    obtain ⟨h1, h2⟩ := List.pairwise_cons.1 h
    rw [ins]
    split
    · rename_i hlt
      refine List.pairwise_cons.2 ⟨?_, h⟩
      intro x hx
      rcases List.mem_cons.1 hx with rfl | hx
      · exact hlt
      · exact lt_trans hlt (h1 x hx)
    · split
      · rename_i hlt
        refine List.pairwise_cons.2 ⟨?_, ih h2⟩
        intro x hx
        rcases (mem_keys_ins r k v x).1 hx with rfl | hx
        · exact hlt
        · exact h1 x hx
      · rename_i a b
        have he : e.1 = k := le_antisymm (not_lt.1 a) (not_lt.1 b)
        refine List.pairwise_cons.2 ⟨?_, h2⟩
        intro x hx
        rw [← he]; exact h1 x hx

theorem get_none_iff {m : List (K × V)} {k : K} : get m k = none ↔ k ∉ keys m := by
  induction m with
  | nil => simp [get, keys]
  | cons e r ih =>
    rw [get]
    split
    · rename_i h; simp [keys, h]
    · rename_i h
      rw [ih]
      simp only [keys, List.map_cons, List.mem_cons, not_or]
      exact ⟨fun hh => ⟨fun c => h c.symm, hh⟩, fun hh => hh.2⟩

theorem get_isSome_iff {m : List (K × V)} {k : K} : (get m k).isSome ↔ k ∈ keys m := by
  cases h : get m k with
  | none => simp [get_none_iff.1 h]
  | some v =>
    simp only [Option.isSome_some, true_iff]
    by_contra hc
    rw [get_none_iff.2 hc] at h
    cases h

theorem get_ins {m : List (K × V)} (h : Sorted m) (k : K) (v : V) (k' : K) :
    get (ins m k v) k' = if k' = k then some v else get m k' := by
  induction m with
  | nil =>
    simp only [ins, get]
    by_cases hk : k' = k
    · rw [if_pos hk, if_pos hk.symm]
    · rw [if_neg hk, if_neg (fun c => hk c.symm)]
  | cons e r ih =>
    obtain ⟨h1, h2⟩ := List.pairwise_cons.1 h
    rw [ins]
    split
    · by_cases hk : k' = k
      · rw [if_pos hk, get, if_pos hk.symm]
      · rw [if_neg hk, get, if_neg (fun c => hk c.symm)]
    · split
      · rename_i hlt
        rw [get, get, ih h2]
        by_cases hk : k' = k
        · rw [if_pos hk, if_pos hk, if_neg]
          rw [hk]; exact ne_of_lt hlt
        · rw [if_neg hk, if_neg hk]
      · rename_i a b
        have he : e.1 = k := le_antisymm (not_lt.1 a) (not_lt.1 b)
        rw [get, get, he]
        by_cases hk : k' = k
        · rw [if_pos hk, if_pos hk.symm]
        · rw [if_neg hk, if_neg (fun c => hk c.symm), if_neg (fun c => hk c.symm)]

/-- Two strictly increasing lists with the same elements are equal. -/
theorem eq_of_sorted {l l' : List K} (h : l.Pairwise (· < ·)) (h' : l'.Pairwise (· < ·)) (hm : ∀ x, x ∈ l ↔ x ∈ l') : l = l' := by
  induction l generalizing l' with
  | nil =>
    cases l' with
    | nil => rfl
    | cons a r => exact absurd ((hm a).2 List.mem_cons_self) (by simp)
  | cons a l ih =>
    cases l' with
    | nil => exact absurd ((hm a).1 List.mem_cons_self) (by simp)
    | cons b l' =>
      obtain ⟨h1, h2⟩ := List.pairwise_cons.1 h
      obtain ⟨h1', h2'⟩ := List.pairwise_cons.1 h'
      have hab : a = b := by
        rcases List.mem_cons.1 ((hm a).1 List.mem_cons_self) with e | e
        · exact e
        · rcases List.mem_cons.1 ((hm b).2 List.mem_cons_self) with e' | e'
          · exact e'.symm
          · exact absurd (lt_trans (h1 b e') (h1' a e)) (lt_irrefl _)
      subst hab
      rw [ih h2 h2']
      intro x
      constructor
      · intro hx
        rcases List.mem_cons.1 ((hm x).1 (List.mem_cons_of_mem _ hx)) with e | e
        · subst e; exact absurd (h1 x hx) (lt_irrefl _)
        · exact e
      · intro hx
        rcases List.mem_cons.1 ((hm x).2 (List.mem_cons_of_mem _ hx)) with e | e
        · subst e; exact absurd (h1' x hx) (lt_irrefl _)
        · exact e

end Thot.SMap
