import Verif.OrdVec.Model
namespace Thot.OrdVec

variable {K D : Type}

/-- Keys that the order cannot separate. -/
def Equiv (lt : K → K → Bool) (a b : K) : Prop := lt a b = false ∧ lt b a = false

instance (lt : K → K → Bool) (a b : K) : Decidable (Equiv lt a b) := inferInstanceAs (Decidable (_ ∧ _))

/-- Strict weak order (what the C++ ordering functor must be). -/
structure StrictWeak (lt : K → K → Bool) : Prop where
  irrefl : ∀ a, lt a a = false
  trans : ∀ a b c, lt a b = true → lt b c = true → lt a c = true
  incomp : ∀ a b c, Equiv lt a b → Equiv lt b c → Equiv lt a c

namespace StrictWeak
variable {lt : K → K → Bool} (h : StrictWeak lt)
include h

theorem asymm {a b : K} (hab : lt a b = true) : lt b a = false := by
  rw [Bool.eq_false_iff]; intro hba
  have := h.trans _ _ _ hab hba
  rw [h.irrefl] at this; cases this

theorem lt_of_equiv_lt {a b c : K} (hab : Equiv lt a b) (hbc : lt b c = true) : lt a c = true := by
  cases hac : lt a c with
  | true => rfl
  | false =>
    cases hca : lt c a with
    | true => have := h.trans _ _ _ hbc hca; rw [hab.2] at this; cases this
    | false =>
      have := h.incomp b a c ⟨hab.2, hab.1⟩ ⟨hac, hca⟩
      rw [this.1] at hbc; cases hbc

theorem lt_of_lt_equiv {a b c : K} (hab : lt a b = true) (hbc : Equiv lt b c) : lt a c = true := by
  cases hac : lt a c with
  | true => rfl
  | false =>
    cases hca : lt c a with
    | true => have := h.trans _ _ _ hca hab; rw [hbc.2] at this; cases this
    | false =>
      have := h.incomp a c b ⟨hac, hca⟩ ⟨hbc.2, hbc.1⟩
      rw [this.1] at hab; cases hab

theorem equiv_refl (a : K) : Equiv lt a a := ⟨h.irrefl a, h.irrefl a⟩
omit h in
theorem equiv_symm {a b : K} (hab : Equiv lt a b) : Equiv lt b a := ⟨hab.2, hab.1⟩
end StrictWeak

/-- Strictly increasing keys. -/
abbrev Sorted (lt : K → K → Bool) (v : Vec K D) : Prop := v.Pairwise (fun a b => lt a.1 b.1 = true)

/-- Sequential search: the data of the first entry with an equivalent key. -/
def lookup (lt : K → K → Bool) : Vec K D → K → Option D
  | [], _ => none
  | p :: v, k => if Equiv lt k p.1 then some p.2 else lookup lt v k

theorem lookup_append (lt : K → K → Bool) (u v : Vec K D) (k : K) :
    lookup lt (u ++ v) k = (lookup lt u k).or (lookup lt v k) := by
  induction u with
  | nil => rfl
  | cons p u ih => simp only [List.cons_append, lookup, ih]; split <;> simp

theorem lookup_eq_none {lt : K → K → Bool} {v : Vec K D} {k : K}
    (h : ∀ p ∈ v, ¬ Equiv lt k p.1) : lookup lt v k = none := by
  induction v with
  | nil => rfl
  | cons p v ih =>
    rw [lookup, if_neg (h p (by simp)), ih (fun q hq => h q (by simp [hq]))]

theorem lookup_iff {lt : K → K → Bool} (hlt : StrictWeak lt) {v : Vec K D} (hs : Sorted lt v) (k : K) (d : D) :
    lookup lt v k = some d ↔ ∃ p ∈ v, Equiv lt k p.1 ∧ p.2 = d := by
  induction v with
  | nil => simp [lookup]
  | cons p v ih =>
    obtain ⟨h1, h2⟩ := List.pairwise_cons.1 hs
    rw [lookup]
    split <;> rename_i hc
    · constructor
      · intro h; cases h; exact ⟨p, by simp, hc, rfl⟩
      · rintro ⟨q, hq, he, rfl⟩
        rcases List.mem_cons.1 hq with rfl | hq
        · rfl
        · have := hlt.lt_of_equiv_lt hc (h1 q hq)
          rw [he.1] at this; cases this
    · rw [ih h2]
      constructor
      · rintro ⟨q, hq, he⟩; exact ⟨q, by simp [hq], he⟩
      · rintro ⟨q, hq, he, hd⟩
        rcases List.mem_cons.1 hq with rfl | hq
        · exact absurd he hc
        · exact ⟨q, hq, he, hd⟩

/-- What `findIndex` returns on a sorted vector. -/
theorem findLoop_spec {lt : K → K → Bool} (hlt : StrictWeak lt) {v : Vec K D} (hs : Sorted lt v) (k : K)
    (left right : Nat) (hlr : left ≤ right) (hr : right ≤ v.length)
    (hL : ∀ i (h : i < v.length), i < left → lt v[i].1 k = true)
    (hR : ∀ i (h : i < v.length), right ≤ i → lt k v[i].1 = true) :
    (∃ i, ∃ h : i < v.length, findLoop lt v k left right = some (true, i) ∧ Equiv lt k v[i].1) ∨
    (∃ i, i ≤ v.length ∧ findLoop lt v k left right = some (false, i) ∧
      (∀ m (h : m < v.length), m < i → lt v[m].1 k = true) ∧
      (∀ m (h : m < v.length), i ≤ m → lt k v[m].1 = true)) := by
  have hpw := List.pairwise_iff_getElem.1 hs
  induction hn : right - left using Nat.strongRecOn generalizing left right with
  | ind n ih =>
    rw [findLoop]
    split <;> rename_i hlt'
    · have hmid : (left + right) / 2 < v.length := by omega
      simp only [List.getElem?_eq_getElem hmid]
      split <;> rename_i hc
      · refine ih _ ?_ left _ (by omega) (by omega) hL ?_ rfl
        · omega
        · intro i hi hge
          rcases Nat.lt_or_eq_of_le hge with h | h
          · exact hlt.trans _ _ _ hc (hpw _ _ hmid hi h)
          · subst h; exact hc
      · split <;> rename_i hc2
        · refine ih _ ?_ _ right (by omega) (by omega) ?_ hR rfl
          · omega
          · intro i hi hle
            rcases Nat.lt_or_eq_of_le (Nat.le_of_lt_succ hle) with h | h
            · exact hlt.trans _ _ _ (hpw _ _ hi hmid h) hc2
            · subst h; exact hc2
        · left; exact ⟨_, hmid, rfl, by simpa using hc, by simpa using hc2⟩
    · have he : left = right := by omega
      subst he
      right
      refine ⟨left, hr, ?_, hL, hR⟩
      unfold findTail
      split
      · rfl
      · rename_i hne
        have hl : left < v.length := by omega
        simp only [List.getElem?_eq_getElem hl]
        rw [if_pos (hR left hl (Nat.le_refl _))]

theorem findIndex_spec {lt : K → K → Bool} (hlt : StrictWeak lt) {v : Vec K D} (hs : Sorted lt v) (k : K) :
    (∃ i, ∃ h : i < v.length, findIndex lt v k = some (true, i) ∧ Equiv lt k v[i].1) ∨
    (∃ i, i ≤ v.length ∧ findIndex lt v k = some (false, i) ∧
      (∀ m (h : m < v.length), m < i → lt v[m].1 k = true) ∧
      (∀ m (h : m < v.length), i ≤ m → lt k v[m].1 = true)) := by
  unfold findIndex
  split
  · exact findLoop_spec hlt hs k 0 v.length (by omega) (by omega) (by intro i h h'; omega)
      (by intro i h h'; omega)
  · rename_i h
    right; exact ⟨0, by omega, rfl, by intro m h h'; omega, by intro m h' _; omega⟩

/-- Same as `findIndex_spec` with the vector split at the index. -/
theorem findIndex_split {lt : K → K → Bool} (hlt : StrictWeak lt) {v : Vec K D} (hs : Sorted lt v) (k : K) :
    (∃ a p b, v = a ++ p :: b ∧ findIndex lt v k = some (true, a.length) ∧ Equiv lt k p.1) ∨
    (∃ a b, v = a ++ b ∧ findIndex lt v k = some (false, a.length) ∧
      (∀ q ∈ a, lt q.1 k = true) ∧ (∀ q ∈ b, lt k q.1 = true)) := by
  rcases findIndex_spec hlt hs k with ⟨i, h, h1, h2⟩ | ⟨i, h, h1, h2, h3⟩
  · left
    refine ⟨v.take i, v[i], v.drop (i + 1), ?_, ?_, h2⟩
    · rw [← List.drop_eq_getElem_cons h, List.take_append_drop]
    · rw [h1, List.length_take]; congr 2; omega
  · right
    refine ⟨v.take i, v.drop i, (List.take_append_drop _ _).symm, ?_, ?_, ?_⟩
    · rw [h1, List.length_take]; congr 2; omega
    · intro q hq
      obtain ⟨m, hm, rfl⟩ := List.getElem_of_mem hq
      rw [List.length_take] at hm
      rw [List.getElem_take]; exact h2 m (by omega) (by omega)
    · intro q hq
      obtain ⟨m, hm, rfl⟩ := List.getElem_of_mem hq
      rw [List.length_drop] at hm
      rw [List.getElem_drop]; exact h3 _ (by omega) (by omega)

theorem lookup_none_of_split {lt : K → K → Bool} {a b : Vec K D} {k : K}
    (ha : ∀ q ∈ a, lt q.1 k = true) (hb : ∀ q ∈ b, lt k q.1 = true) : lookup lt (a ++ b) k = none := by
  apply lookup_eq_none
  intro p hp he
  rcases List.mem_append.1 hp with h | h
  · have := ha p h; rw [he.2] at this; cases this
  · have := hb p h; rw [he.1] at this; cases this

theorem lookup_some_of_split {lt : K → K → Bool} (hlt : StrictWeak lt) {a b : Vec K D} {p : K × D} {k : K}
    (hs : Sorted lt (a ++ p :: b)) (he : Equiv lt k p.1) : lookup lt (a ++ p :: b) k = some p.2 :=
  (lookup_iff hlt hs k p.2).2 ⟨p, by simp, he, rfl⟩

theorem findPtr_spec {lt : K → K → Bool} (hlt : StrictWeak lt) {v : Vec K D} (hs : Sorted lt v) (k : K) :
    findPtr lt v k = some (lookup lt v k) := by
  rcases findIndex_split hlt hs k with ⟨a, p, b, rfl, h1, h2⟩ | ⟨a, b, rfl, h1, h2, h3⟩
  · rw [findPtr, h1, lookup_some_of_split hlt hs h2]
    simp
  · rw [findPtr, h1, lookup_none_of_split h2 h3]

theorem set_split (a b : Vec K D) (p q : K × D) : (a ++ p :: b).set a.length q = a ++ q :: b := by
  simp

theorem sorted_replace {lt : K → K → Bool} {a b : Vec K D} {p q : K × D} (hk : p.1 = q.1)
    (hs : Sorted lt (a ++ p :: b)) : Sorted lt (a ++ q :: b) := by
  unfold Sorted at *
  rw [List.pairwise_append, List.pairwise_cons] at *
  obtain ⟨h1, ⟨h2, h3⟩, h4⟩ := hs
  refine ⟨h1, ⟨by rw [← hk]; exact h2, h3⟩, ?_⟩
  intro x hx y hy
  rcases List.mem_cons.1 hy with rfl | hy
  · rw [← hk]; exact h4 x hx p (by simp)
  · exact h4 x hx y (by simp [hy])

theorem lookup_replace {lt : K → K → Bool} (hlt : StrictWeak lt) {a b : Vec K D} {p : K × D} {k : K} {d : D}
    (hs : Sorted lt (a ++ p :: b)) (he : Equiv lt k p.1) (x : K) :
    lookup lt (a ++ (p.1, d) :: b) x = if Equiv lt x k then some d else lookup lt (a ++ p :: b) x := by
  split <;> rename_i hx
  · exact lookup_some_of_split hlt (sorted_replace (p := p) (q := (p.1, d)) rfl hs) (hlt.incomp _ _ _ hx he)
  · have hne : ¬ Equiv lt x p.1 := fun h => hx (hlt.incomp _ _ _ h (StrictWeak.equiv_symm he))
    have hne' : ¬ Equiv lt x (p.1, d).1 := hne
    rw [lookup_append, lookup_append, lookup, lookup, if_neg hne, if_neg hne']

theorem sorted_insert {lt : K → K → Bool} {a b : Vec K D} {k : K} {d : D}
    (hs : Sorted lt (a ++ b)) (ha : ∀ q ∈ a, lt q.1 k = true) (hb : ∀ q ∈ b, lt k q.1 = true) :
    Sorted lt (a ++ (k, d) :: b) := by
  unfold Sorted at *
  rw [List.pairwise_append] at *
  obtain ⟨h1, h2, h3⟩ := hs
  refine ⟨h1, List.pairwise_cons.2 ⟨hb, h2⟩, ?_⟩
  intro x hx y hy
  rcases List.mem_cons.1 hy with rfl | hy
  · exact ha x hx
  · exact h3 x hx y hy

theorem lookup_insert {lt : K → K → Bool} (hlt : StrictWeak lt) {a b : Vec K D} {k : K} {d : D}
    (ha : ∀ q ∈ a, lt q.1 k = true) (x : K) :
    lookup lt (a ++ (k, d) :: b) x = if Equiv lt x k then some d else lookup lt (a ++ b) x := by
  rw [lookup_append, lookup_append, lookup]
  split <;> rename_i hx
  · have : lookup lt a x = none := by
      apply lookup_eq_none
      intro q hq he
      have := hlt.lt_of_lt_equiv (ha q hq) (StrictWeak.equiv_symm hx)
      rw [he.2] at this; cases this
    rw [this]; rfl
  · rfl

theorem push_spec {lt : K → K → Bool} (hlt : StrictWeak lt) {v : Vec K D} (hs : Sorted lt v) (k : K) (d : D) :
    ∃ v', push lt v k d = some v' ∧ Sorted lt v' ∧
      ∀ x, lookup lt v' x = if Equiv lt x k then some d else lookup lt v x := by
  unfold push
  split
  · rename_i h0
    have : v = [] := List.length_eq_zero_iff.1 h0
    subst this
    refine ⟨_, rfl, by simp [Sorted], fun x => ?_⟩
    simp only [lookup]
  · rcases findIndex_split hlt hs k with ⟨a, p, b, rfl, h1, h2⟩ | ⟨a, b, rfl, h1, h2, h3⟩
    · refine ⟨a ++ (p.1, d) :: b, ?_, sorted_replace (p := p) (q := (p.1, d)) rfl hs, fun x => lookup_replace hlt hs h2 x⟩
      rw [h1]; simp
    · refine ⟨a ++ (k, d) :: b, ?_, sorted_insert hs h2 h3, fun x => lookup_insert hlt h2 x⟩
      rw [h1]; simp

theorem index_spec {lt : K → K → Bool} (hlt : StrictWeak lt) {v : Vec K D} (hs : Sorted lt v) (k : K) (d0 : D) :
    ∃ v', index lt d0 v k = some v' ∧ Sorted lt v' ∧
      ∀ x, lookup lt v' x =
        if Equiv lt x k then (if lookup lt v k = none then some d0 else lookup lt v x) else lookup lt v x := by
  rcases findIndex_split hlt hs k with ⟨a, p, b, hv, h1, h2⟩ | ⟨a, b, hv, h1, h2, h3⟩
  · refine ⟨v, by rw [index, h1], hs, fun x => ?_⟩
    have : lookup lt v k ≠ none := by
      subst hv; rw [lookup_some_of_split hlt hs h2]; simp
    rw [if_neg this]; split <;> rfl
  · obtain ⟨v', e1, e2, e3⟩ := push_spec hlt hs k d0
    refine ⟨v', by rw [index, h1]; exact e1, e2, fun x => ?_⟩
    have : lookup lt v k = none := by subst hv; exact lookup_none_of_split h2 h3
    rw [e3, if_pos this]

theorem assign_spec {lt : K → K → Bool} (hlt : StrictWeak lt) {v : Vec K D} (hs : Sorted lt v) (k : K) (d0 d : D) :
    ∃ v', assign lt d0 v k d = some v' ∧ Sorted lt v' ∧
      ∀ x, lookup lt v' x = if Equiv lt x k then some d else lookup lt v x := by
  obtain ⟨v1, e1, e2, e3⟩ := index_spec hlt hs k d0
  rcases findIndex_split hlt e2 k with ⟨a, p, b, hv, h1, h2⟩ | ⟨a, b, hv, h1, h2, h3⟩
  · subst hv
    refine ⟨a ++ (p.1, d) :: b, ?_, sorted_replace (p := p) (q := (p.1, d)) rfl e2, fun x => ?_⟩
    · rw [assign, e1]; simp only [h1]; simp
    · rw [lookup_replace hlt e2 h2]
      split
      · rfl
      · rename_i hx; rw [e3, if_neg hx]
  · exfalso
    have h4 := e3 k
    rw [if_pos (hlt.equiv_refl k)] at h4
    subst hv
    rw [lookup_none_of_split h2 h3] at h4
    split at h4
    · cases h4
    · rename_i hne; exact hne h4.symm

theorem pop_append (a : Vec K D) (p : K × D) : pop (a ++ [p]) = a := by
  simp [pop]

theorem eq_append_of_ne_nil {v : Vec K D} (h : 0 < v.length) : ∃ a p, v = a ++ [p] := by
  have hv : v ≠ [] := fun e => by subst e; simp at h
  exact ⟨v.dropLast, v.getLast hv, (List.dropLast_concat_getLast hv).symm⟩

theorem pop_sorted {lt : K → K → Bool} {v : Vec K D} (hs : Sorted lt v) : Sorted lt (pop v) := by
  unfold pop; split
  · exact hs.sublist (List.take_sublist _ _)
  · exact hs

open Classical in
theorem pop_lookup {lt : K → K → Bool} (hlt : StrictWeak lt) {v : Vec K D} (hs : Sorted lt v) (x : K) :
    lookup lt (pop v) x =
      if (lookup lt v x ≠ none ∧ ∀ k', lookup lt v k' ≠ none → lt x k' = false) then none
      else lookup lt v x := by
  by_cases hv : 0 < v.length
  · obtain ⟨a, p, rfl⟩ := eq_append_of_ne_nil hv
    rw [pop_append]
    have hap : ∀ q ∈ a, lt q.1 p.1 = true := fun q hq =>
      (List.pairwise_append.1 hs).2.2 q hq p (by simp)
    have hlp : lookup lt (a ++ [p]) p.1 = some p.2 := lookup_some_of_split hlt hs (hlt.equiv_refl _)
    have hsa : Sorted lt a := (List.pairwise_append.1 hs).1
    split <;> rename_i hx
    · apply lookup_eq_none
      intro q hq he
      have h1 := hx.2 p.1 (by rw [hlp]; simp)
      have := hlt.lt_of_equiv_lt he (hap q hq)
      rw [h1] at this; cases this
    · rw [lookup_append]
      cases hla : lookup lt a x with
      | some d => rfl
      | none =>
        rw [lookup, lookup]
        split
        · rename_i hxe
          exfalso; apply hx
          refine ⟨?_, ?_⟩
          · rw [lookup_append, hla, lookup, if_pos hxe]; simp
          · intro k' hk'
            rw [ne_eq, Option.eq_none_iff_forall_ne_some] at hk'
            simp only [ne_eq, not_forall, Decidable.not_not] at hk'
            obtain ⟨d, hd⟩ := hk'
            obtain ⟨q, hq, he, _⟩ := (lookup_iff hlt hs k' d).1 hd
            rw [Bool.eq_false_iff]; intro hxk
            have h5 := hlt.lt_of_equiv_lt (StrictWeak.equiv_symm hxe) (hlt.lt_of_lt_equiv hxk he)
            rcases List.mem_append.1 hq with hq | hq
            · rw [hlt.asymm (hap q hq)] at h5; cases h5
            · rw [List.mem_singleton.1 hq, hlt.irrefl] at h5; cases h5
        · rfl
  · have : v = [] := List.length_eq_zero_iff.1 (by omega)
    subst this; simp [pop, lookup]

theorem top_pop_spec {lt : K → K → Bool} (hlt : StrictWeak lt) {v : Vec K D} (hs : Sorted lt v)
    (hne : 0 < v.length) :
    ∃ p, top v = some p ∧ v = pop v ++ [p] ∧
      findPtr lt v p.1 = some (some p.2) ∧ findPtr lt (pop v) p.1 = some none ∧
      (∀ q ∈ pop v, lt q.1 p.1 = true) ∧
      (∀ k, ¬ Equiv lt k p.1 → findPtr lt (pop v) k = findPtr lt v k) := by
  obtain ⟨a, p, rfl⟩ := eq_append_of_ne_nil hne
  have hap : ∀ q ∈ a, lt q.1 p.1 = true := fun q hq =>
    (List.pairwise_append.1 hs).2.2 q hq p (by simp)
  have hsa : Sorted lt a := (List.pairwise_append.1 hs).1
  rw [pop_append]
  refine ⟨p, by simp [top], rfl, ?_, ?_, hap, ?_⟩
  · rw [findPtr_spec hlt hs, lookup_some_of_split hlt hs (hlt.equiv_refl _)]
  · rw [findPtr_spec hlt hsa, lookup_eq_none]
    intro q hq he
    have := hap q hq
    rw [he.2] at this; cases this
  · intro k hk
    rw [findPtr_spec hlt hsa, findPtr_spec hlt hs, lookup_append]
    have : lookup lt [p] k = none := by rw [lookup, if_neg hk]; rfl
    rw [this]; simp

end Thot.OrdVec
