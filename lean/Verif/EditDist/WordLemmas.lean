import Verif.EditDist.WordModel
import Verif.EditDist.WordSpec
import Verif.EditDist.Props

namespace Thot.EditDist

/-! ### Costs -/

theorem calc_charDist (k : Costs) (a b : Str) : calculateEditDist k a b = some (charDist k a b) := by
  obtain ⟨d, h, -⟩ := C30_distance_is_minimum k a b
  rw [charDist, h]; rfl

theorem strPrefix_charPrefDist (k : Costs) (a b : Str) : strPrefix k a b = some (charPrefDist k a b) := by
  rw [charPrefDist, strPrefix, strPrefixOps, strPrefixOpsAux_ok]; rfl

theorem wordSubstCost_ok (k : Costs) (a b : Str) : wordSubstCost k a b = some (charDist k a b) := by
  obtain ⟨d, c, h1, h2, h3, -⟩ := C31_counts k a b
  rw [wordSubstCost, h1, charDist, h2]
  simp [linCost, h3]

theorem wordPrefSubstCost_ok (k : Costs) (a b : Str) : wordPrefSubstCost k a b = some (charPrefDist k a b) := by
  rw [charPrefDist, strPrefix, wordPrefSubstCost, strPrefixOps, strPrefixOpsAux_ok]
  simp only [Option.map_some, Option.getD_some, Option.some.injEq, linCost]
  rw [← sumCost_eq, sumCost_reverse, sumCost_tr]

/-! ### The grid -/

/-- The words of the prefix with the marker of the incomplete last word. -/
def mark (lc : Bool) (y : List Str) : List PWord :=
  if lc then y.map .full else y.dropLast.map .full ++ (y.getLast?.map PWord.part).toList

theorem mark_get (lc : Bool) (y : List Str) (j : Nat) (hj : j < y.length) :
    (mark lc y)[j]? = some (if j + 1 = y.length ∧ lc = false then .part y[j] else .full y[j]) := by
  cases lc with
  | true => simp [mark, hj]
  | false =>
    simp only [mark, Bool.false_eq_true, if_false, and_true]
    have hne : y ≠ [] := by intro h; simp [h] at hj
    by_cases h : j + 1 = y.length
    · rw [List.getElem?_append_right (by simp; omega)]
      simp only [List.length_map, List.length_dropLast]
      have : j - (y.length - 1) = 0 := by omega
      rw [this]
      rw [List.getLast?_eq_getElem?]
      have h2 : y.length - 1 = j := by omega
      simp [h2, hj, h]
    · rw [List.getElem?_append_left (by simp; omega)]
      simp only [h, if_false]
      simp [List.getElem?_dropLast, hj]
      omega

theorem length_mark (lc : Bool) (y : List Str) : (mark lc y).length = y.length := by
  cases lc with
  | true => simp [mark]
  | false =>
    simp only [mark, Bool.false_eq_true, if_false]
    cases y with
    | nil => rfl
    | cons a y => simp [List.getLast?_cons]

def pairAt (k : Costs) (a : Option Str) (b : Option PWord) : Score :=
  match a, b with
  | some a, some b => pairC k a b
  | _, _ => 0

/-- Grid of the word-level prefix distance. -/
def gW (k : Costs) (x y : List Str) (lc u : Bool) : Grid where
  pair i j := pairAt k x[i - 1]? (mark lc y)[j - 1]?
  del i j := if (u && j == y.length && j != 0) = true then 0 else wordDelCost k (x[i - 1]?.getD [])
  ins _ j := wordInsCost k (y[j - 1]?.getD [])
  pairOp i j :=
    if x[i - 1]?.getD [] = y[j - 1]?.getD [] ∨ ((!lc && StrProc.isPrefix (y[j - 1]?.getD []) (x[i - 1]?.getD [])) = true)
      then .hit else .subst
  delOp i j := if j ≠ 0 ∧ (if (u && j == y.length && j != 0) = true then (0 : Score)
    else wordDelCost k (x[i - 1]?.getD [])) = 0 then .prefDel else .del

/-- The suffix added to the keys of the prefix costs. -/
def prefTag : Str := " pref".toList

/-- Invariant of the cache of costs. -/
def CacheOk (k : Costs) (m : SubstCostMap) : Prop :=
  ∀ key v, findCost m key = some v →
    (¬ prefTag <:+ key.1 → v = charDist k key.1 key.2) ∧
    (∀ a, key.1 = a ++ prefTag → v = charPrefDist k a key.2)

theorem cacheOk_nil (k : Costs) : CacheOk k [] := by intro key v h; simp [findCost] at h

theorem cachedPref_ok (k : Costs) (a b : Str) (m : SubstCostMap) (hm : CacheOk k m) :
    ∃ m', cachedPrefSubstCost k a b m = some (m', charPrefDist k a b) ∧ CacheOk k m' := by
  unfold cachedPrefSubstCost
  simp only
  cases h : findCost m (a ++ " pref".toList, b) with
  | some v =>
    have := (hm _ _ h).2 a rfl
    exact ⟨m, by rw [this], hm⟩
  | none =>
    rw [wordPrefSubstCost_ok]
    refine ⟨_, rfl, ?_⟩
    intro key v hk
    rw [findCost] at hk
    split at hk
    · rename_i he
      simp only at he
      subst he
      cases hk
      refine ⟨fun hn => absurd ⟨a, rfl⟩ hn, ?_⟩
      intro a' ha'
      have : a = a' := List.append_cancel_right ha'
      rw [this]
    · exact hm _ _ hk

theorem cachedSubst_ok (k : Costs) (a b : Str) (m : SubstCostMap) (hm : CacheOk k m) (ha : ¬ prefTag <:+ a) :
    ∃ m', cachedSubstCost k a b m = some (m', charDist k a b) ∧ CacheOk k m' := by
  unfold cachedSubstCost
  cases h : findCost m (a, b) with
  | some v =>
    have := (hm _ _ h).1 ha
    exact ⟨m, by rw [this], hm⟩
  | none =>
    rw [wordSubstCost_ok]
    refine ⟨_, rfl, ?_⟩
    intro key v hk
    rw [findCost] at hk
    split at hk
    · rename_i he
      simp only at he
      subst he
      cases hk
      refine ⟨fun _ => rfl, ?_⟩
      intro a' ha'
      exact absurd ⟨a', ha'.symm⟩ ha
    · exact hm _ _ hk

theorem pairCost_ok (k : Costs) (x y : List Str) (lc : Bool) (i j : Nat) (hi : i < x.length) (hj : j < y.length)
    (m : SubstCostMap) (hm : CacheOk k m) (hx : ∀ a ∈ x, ¬ prefTag <:+ a) :
    ∃ m', pairCost k y.length lc (j + 1) x[i] y[j] m = some (m', pairAt k x[i]? (mark lc y)[j]?) ∧
      CacheOk k m' := by
  unfold pairCost
  rw [mark_get lc y j hj, List.getElem?_eq_getElem hi]
  by_cases h : j + 1 = y.length ∧ lc = false
  · rw [if_pos (by simp [h.1, h.2]), if_pos h]
    exact cachedPref_ok k _ _ m hm
  · rw [if_neg (by simp; intro h1; cases lc; exact absurd ⟨h1, rfl⟩ h; rfl), if_neg h]
    exact cachedSubst_ok k _ _ m hm (hx _ (List.getElem_mem hi))

theorem cellWordPref_ok (k : Costs) (x y : List Str) (lc u : Bool) (hx : ∀ a ∈ x, ¬ prefTag <:+ a) :
    Implements (gW k x y lc u) (CacheOk k) x.length y.length (cellWordPref k x y lc u) := by
  intro m dm i j hm hi hj hp
  unfold cellWordPref
  split
  · rename_i h
    obtain ⟨i, rfl⟩ : ∃ i', i = i' + 1 := ⟨i - 1, by omega⟩
    obtain ⟨j, rfl⟩ : ∃ j', j = j' + 1 := ⟨j - 1, by omega⟩
    have h1 : i < x.length := by omega
    have h2 : j < y.length := by omega
    obtain ⟨m', hpc, hm'⟩ := pairCost_ok k x y lc i j h1 h2 m hm hx
    refine ⟨m', ?_, hm'⟩
    have hj0 : (j + 1 != 0) = true := by simp
    have := interior_ok (gW k x y lc u) h.1 h.2 hp
    simp only [gW, Nat.add_sub_cancel, List.getElem?_eq_getElem h1, List.getElem?_eq_getElem h2, Option.getD_some,
      hj0, Bool.and_true, ne_eq, h.2, not_false_eq_true, true_and] at this
    simp only [Nat.add_sub_cancel, List.getElem?_eq_getElem h1, List.getElem?_eq_getElem h2, Option.bind_eq_bind,
      Option.bind_some, hpc]
    rw [this]
    simp [gW]
  · rename_i h
    refine ⟨m, ?_, hm⟩
    rw [border_ok (gW k x y lc u) h hp]
    · rfl
    · intro h0
      have h1 : i - 1 < x.length := by omega
      have : j = 0 := by omega
      simp [List.getElem?_eq_getElem h1, gW, this]
    · intro h0
      have h1 : j - 1 < y.length := by omega
      simp [List.getElem?_eq_getElem h1, gW]
    · intro _ h0; simp [gW, h0]

theorem cellWordPrefFresh_ok (k : Costs) (x y : List Str) (lc u : Bool) (hx : ∀ a ∈ x, ¬ prefTag <:+ a)
    (dm : DistMatrix) (i j : Nat) (hi : i ≤ x.length) (hj : j ≤ y.length) (hp : Preds (gW k x y lc u) dm i j) :
    cellWordPrefFresh k x y lc u dm i j = some ((gW k x y lc u).res i j) := by
  obtain ⟨s', h, -⟩ := cellWordPref_ok k x y lc u hx [] dm i j (cacheOk_nil k) hi hj hp
  rw [cellWordPrefFresh, h]
  rfl

/-- The plain word-level grid. -/
def gWP (k : Costs) (x y : List Str) : Grid :=
  { gW k x y true false with delOp := fun _ _ => .del }

theorem cellWord_ok (k : Costs) (x y : List Str) (dm : DistMatrix) (i j : Nat) (hi : i ≤ x.length)
    (hj : j ≤ y.length) (hp : Preds (gWP k x y) dm i j) :
    cellWord k x y dm i j = some ((gWP k x y).res i j) := by
  unfold cellWord
  split
  · rename_i h
    obtain ⟨i, rfl⟩ : ∃ i', i = i' + 1 := ⟨i - 1, by omega⟩
    obtain ⟨j, rfl⟩ : ∃ j', j = j' + 1 := ⟨j - 1, by omega⟩
    have h1 : i < x.length := by omega
    have h2 : j < y.length := by omega
    have := interior_ok (gWP k x y) h.1 h.2 hp
    generalize (gWP k x y).res (i + 1) (j + 1) = r at this ⊢
    simp only [gWP, gW, Nat.add_sub_cancel, List.getElem?_eq_getElem h1, List.getElem?_eq_getElem h2,
      Option.getD_some, mark_get _ _ _ h2, Bool.false_and, Bool.not_true, Bool.false_eq_true, or_false,
      Bool.true_eq_false, and_false, if_false, pairAt, pairC] at this
    simp only [Nat.add_sub_cancel, List.getElem?_eq_getElem h1, List.getElem?_eq_getElem h2, Option.bind_eq_bind,
      Option.bind_some, wordSubstCost_ok]
    rw [this]
  · rename_i h
    apply border_ok _ h hp
    · intro h0
      have h1 : i - 1 < x.length := by omega
      have : j = 0 := by omega
      simp [List.getElem?_eq_getElem h1, gWP, gW, this]
    · intro h0
      have h1 : j - 1 < y.length := by omega
      simp [List.getElem?_eq_getElem h1, gWP, gW]
    · intro _ h0; rfl

end Thot.EditDist
