import Verif.NgramScripts.Model
/-!
C248: the counts of n-grams.
-/
namespace Thot.NgramScripts

open Thot
open Thot.SentHandler (joinWords Word fields_join)
open Thot.Awk (fields)
open Thot.Vocab (showNat)
open Thot.AMap (lk put Distinct)
open Thot.PhrTools (join_append join_inj)

/-! ### Specification -/

/-- A sentence with its beginning and its end. -/
def padded (s : List Str) : List Str := "<s>".toList :: s ++ ["</s>".toList]

/-- The number of occurrences of an n-gram in a list of words: the number of positions where it begins. -/
def occ (g l : List Str) : Nat := (List.range l.length).countP fun k => decide (g <+: l.drop k)

/-- The number of occurrences of an n-gram in a corpus. -/
def total (g : List Str) (corpus : List (List Str)) : Nat := (corpus.map fun s => occ g (padded s)).sum

/-- The words of a corpus. -/
def Corpus (corpus : List (List Str)) : Prop := ∀ s ∈ corpus, ∀ w ∈ s, Word w ∧ w ≠ "<s>".toList ∧ w ≠ "</s>".toList

/-- The line of an n-gram: its words, the count of its history (the number of words when it is empty) and its count. -/
def ngramLine (corpus : List (List Str)) (g : List Str) : Str :=
  joinWords (g ++ [showNat (total g.dropLast corpus), showNat (total g corpus)])

/-- The lines of the n-grams up to the order given, once each. -/
def CountsOf (n : Nat) (corpus : List (List Str)) (out : List Str) : Prop :=
  ∃ gs : List (List Str), gs.Nodup ∧ (∀ g, g ∈ gs ↔ 1 ≤ g.length ∧ g.length ≤ n ∧ 0 < total g corpus) ∧ out = gs.map (ngramLine corpus)

/-! ### The text of an n-gram -/

theorem padded_length (s : List Str) : (padded s).length = s.length + 2 := by simp [padded]

theorem padded_get (s : List Str) (z : Nat) : (padded s)[z]? =
    if z = 0 then some "<s>".toList else if z = s.length + 1 then some "</s>".toList else s[z - 1]? := by
  unfold padded
  cases z with
  | zero => simp
  | succ z =>
    rw [if_neg (by omega), List.cons_append, List.getElem?_cons_succ, Nat.add_sub_cancel]
    by_cases h : z = s.length
    · subst h; simp
    · rw [if_neg (by omega)]
      rcases Nat.lt_or_ge z s.length with h1 | h1
      · rw [List.getElem?_append_left h1]
      · rw [List.getElem?_eq_none (by simp; omega), List.getElem?_eq_none h1]

theorem join_snoc (us : List Str) (v : Str) (h : us ≠ []) : joinWords (us ++ [v]) = joinWords us ++ ' ' :: v :=
  join_append us [v] h (by simp)

theorem join_ne_nil {us : List Str} (h : us ≠ []) (hw : ∀ u ∈ us, Word u) : joinWords us ≠ [] := by
  intro hc
  have := fields_join hw
  rw [hc] at this
  exact h (by rw [← this]; rfl)

theorem word_bos : Word "<s>".toList := ⟨by decide, by decide⟩
theorem word_eos : Word "</s>".toList := ⟨by decide, by decide⟩

theorem padded_words {s : List Str} (h : ∀ w ∈ s, Word w) : ∀ w ∈ padded s, Word w := by
  intro w hw
  unfold padded at hw
  rw [List.mem_append, List.mem_cons, List.mem_singleton] at hw
  rcases hw with (rfl | hw) | rfl
  · exact word_bos
  · exact h w hw
  · exact word_eos

theorem window_snoc {α : Type} (l : List α) (z m : Nat) {v : α} (h : l[z + m]? = some v) : (l.drop z).take (m + 1) = (l.drop z).take m ++ [v] := by
  rw [List.take_add_one, List.getElem?_drop, h]
  rfl

theorem fold_cad {s : List Str} (h : ∀ w ∈ s, Word w) (z : Nat) (hz : z ≤ s.length) : ∀ m, 1 ≤ m → z + m ≤ s.length + 2 → 
    (z = 0 ∨ 1 ≤ z) →
    (List.range' z m).foldl (cadStep s) [] = joinWords (((padded s).drop z).take m) := by
  intro m
  induction m with
  | zero => intro h; omega
  | succ m ih =>
    intro _ hm hz0
    have hget : ∃ v, (padded s)[z + m]? = some v := ⟨_, List.getElem?_eq_getElem (by rw [padded_length]; omega)⟩
    obtain ⟨v, hv⟩ := hget
    rw [List.range'_concat, List.foldl_append, window_snoc _ _ _ hv, Nat.one_mul]
    have hv' := padded_get s (z + m)
    rw [hv] at hv'
    show cadStep s _ (z + m) = _
    cases m with
    | zero =>
      rw [List.range'_zero, List.foldl_nil]
      unfold cadStep
      rw [List.take_zero, List.nil_append]
      show _ = v
      by_cases h0 : z + 0 = 0
      · rw [if_pos h0] at hv' ⊢; injection hv' with e; exact e.symm
      · rw [if_neg h0, if_neg (by omega)] at hv' ⊢
        rw [if_pos rfl, List.getD_eq_getElem?_getD, ← hv']
        rfl
    | succ m =>
      rw [ih (by omega) (by omega) hz0]
      unfold cadStep
      have hne : ((padded s).drop z).take (m + 1) ≠ [] := by
        intro hc
        have := congrArg List.length hc
        rw [List.length_take, List.length_drop, padded_length, List.length_nil] at this
        omega
      rw [join_snoc _ _ hne, if_neg (by omega)]
      rw [if_neg (by omega)] at hv'
      by_cases h1 : z + (m + 1) = s.length + 1
      · rw [if_pos h1] at hv' ⊢
        injection hv' with e
        rw [e]; rfl
      · rw [if_neg h1] at hv' ⊢
        rw [if_neg (join_ne_nil hne fun u hu => padded_words h u (List.mem_of_mem_drop (List.mem_of_mem_take hu))), List.getD_eq_getElem?_getD, ← hv']
        rfl

/-- The n-gram of length `i` whose last word is at `j`. -/
theorem cad_eq {s : List Str} (h : ∀ w ∈ s, Word w) {i j : Nat} (hi : 1 ≤ i) (h1 : leftmost i ≤ j) (h2 : j ≤ rightmost s.length i) :
    cad s i j = joinWords (((padded s).drop (j + 1 - i)).take i) := by
  unfold leftmost at h1
  unfold rightmost at h2
  unfold cad firstZ
  by_cases h0 : i = 1
  · rw [if_pos h0] at h1 h2
    rw [if_pos (show j + 1 ≥ i by omega), fold_cad h _ (by omega) _ (by omega) (by omega) (by omega)]
    congr 2; omega
  · rw [if_neg h0] at h1 h2
    rw [if_pos (show j + 1 ≥ i by omega), fold_cad h _ (by omega) _ (by omega) (by omega) (by omega)]
    congr 2; omega

/-! ### Occurrences -/

theorem prefix_iff_take {α : Type} [DecidableEq α] (g l : List α) : g <+: l ↔ l.take g.length = g := by
  constructor
  · rintro ⟨r, rfl⟩; simp
  · intro h; rw [← h]; exact List.take_prefix _ _

theorem range'_map_sub (a c k : Nat) (f : Nat → Bool) (hc : c ≤ a) : (List.range' a k).countP (fun j => f (j - c)) = (List.range' (a - c) k).countP f := by
  induction k generalizing a with
  | zero => rfl
  | succ k ih =>
    rw [List.range'_succ, List.range'_succ, List.countP_cons, List.countP_cons, ih (a + 1) (by omega)]
    rw [show a + 1 - c = a - c + 1 by omega]

theorem countP_range'_append (a k m : Nat) (f : Nat → Bool) :
    (List.range' a (k + m)).countP f = (List.range' a k).countP f + (List.range' (a + k) m).countP f := by
  rw [← List.range'_append_1, List.countP_append]

/-- The positions counted for the texts of length `i`. -/
def posCount (s : List Str) (i : Nat) (k : Str) : Nat :=
  ((List.range' (leftmost i) (rightmost s.length i + 1 - leftmost i)).map fun j => cad s i j).count k

theorem window_length {s : List Str} {i j : Nat} (hi : 1 ≤ i) (h1 : leftmost i ≤ j) (h2 : j ≤ rightmost s.length i) :
    (((padded s).drop (j + 1 - i)).take i).length = i := by
  unfold leftmost at h1
  unfold rightmost at h2
  rw [List.length_take, List.length_drop, padded_length]
  by_cases h0 : i = 1
  · rw [if_pos h0] at h1 h2; omega
  · rw [if_neg h0] at h1 h2; omega

theorem posCount_other {s : List Str} (h : ∀ w ∈ s, Word w) {g : List Str} (hg : ∀ w ∈ g, Word w) {i : Nat} (hi : 1 ≤ i) (hne : g.length ≠ i) :
    posCount s i (joinWords g) = 0 := by
  unfold posCount
  rw [List.count_eq_zero]
  intro hm
  obtain ⟨j, hj, he⟩ := List.mem_map.1 hm
  rw [List.mem_range'_1] at hj
  rw [cad_eq h hi hj.1 (by omega)] at he
  have := join_inj (fun u hu => padded_words h u (List.mem_of_mem_drop (List.mem_of_mem_take hu))) hg he
  have h3 := window_length (s := s) hi hj.1 (by omega)
  rw [this] at h3
  exact hne h3

theorem posCount_same {s : List Str} (h : ∀ w ∈ s, Word w) {g : List Str} (hg : ∀ w ∈ g, Word w) (hi : 1 ≤ g.length) :
    posCount s g.length (joinWords g) = (List.range' (leftmost g.length + 1 - g.length) (rightmost s.length g.length + 1 - leftmost g.length)).countP
      fun k => decide (g <+: (padded s).drop k) := by
  unfold posCount
  rw [List.count_eq_countP, List.countP_map]
  have hl : g.length ≤ leftmost g.length + 1 := by unfold leftmost; split <;> omega
  have : ∀ (a k : Nat), g.length ≤ a + 1 →
      (List.range' a k).countP (fun j => decide (g <+: (padded s).drop (j + 1 - g.length))) =
      (List.range' (a + 1 - g.length) k).countP fun k => decide (g <+: (padded s).drop k) := by
    intro a k ha
    have := range'_map_sub a (g.length - 1) k (fun k => decide (g <+: (padded s).drop k)) (by omega)
    rw [show a + 1 - g.length = a - (g.length - 1) by omega, ← this]
    apply List.countP_congr
    intro j hj
    rw [List.mem_range'_1] at hj
    rw [show j + 1 - g.length = j - (g.length - 1) by omega]
  rw [← this _ _ hl]
  apply List.countP_congr
  intro j hj
  rw [List.mem_range'_1] at hj
  simp only [Function.comp_def]
  rw [cad_eq h hi hj.1 (by omega)]
  simp only [beq_iff_eq, decide_eq_true_eq]
  rw [prefix_iff_take]
  constructor
  · exact fun he => join_inj (fun u hu => padded_words h u (List.mem_of_mem_drop (List.mem_of_mem_take hu))) hg he
  · intro he; rw [he]

theorem no_prefix {g l : List Str} {k : Nat} (hg : 1 ≤ g.length) (h : l.length < k + g.length) : ¬ g <+: l.drop k := by
  intro hc
  have := hc.length_le
  rw [List.length_drop] at this
  omega

theorem countP_zero {l : List Nat} {f : Nat → Bool} (h : ∀ k ∈ l, f k = false) : l.countP f = 0 := by
  rw [List.countP_eq_zero]; intro k hk; rw [h k hk]; simp

/-- For the n-grams with more than one word, and for a word of the sentence, the script counts the occurrences. -/
theorem posCount_occ {s : List Str} (h : ∀ w ∈ s, Word w) {g : List Str} (hg : ∀ w ∈ g, Word w) (hi : 1 ≤ g.length)
    (h1 : g ≠ ["<s>".toList]) (h2 : g ≠ ["</s>".toList]) : posCount s g.length (joinWords g) = occ g (padded s) := by
  rw [posCount_same h hg hi]
  unfold occ leftmost rightmost
  rw [padded_length, List.range_eq_range']
  by_cases h0 : g.length = 1
  · rw [h0, if_pos rfl, if_pos rfl]
    rw [show s.length + 2 = 1 + (s.length + 1) by omega, countP_range'_append, show s.length + 1 = s.length + 1 from rfl, countP_range'_append]
    obtain ⟨w, rfl⟩ := List.length_eq_one_iff.1 h0
    rw [countP_zero (l := List.range' 0 1), countP_zero (l := List.range' (0 + 1 + s.length) 1)]
    · simp
    · intro k hk
      rw [List.mem_range'_1] at hk
      have : k = s.length + 1 := by omega
      subst this
      rw [decide_eq_false_iff_not]
      rintro ⟨r, hr⟩
      have h3 := padded_get s (s.length + 1)
      rw [if_neg (by omega), if_pos rfl] at h3
      have h4 : ((padded s).drop (s.length + 1))[0]? = some w := by rw [← hr]; rfl
      rw [List.getElem?_drop, Nat.add_zero, h3] at h4
      injection h4 with h4
      exact h2 (by rw [h4])
    · intro k hk
      rw [List.mem_range'_1] at hk
      have : k = 0 := by omega
      subst this
      rw [decide_eq_false_iff_not]
      rintro ⟨r, hr⟩
      have h4 : ((padded s).drop 0)[0]? = some w := by rw [← hr]; rfl
      rw [List.drop_zero, padded_get, if_pos rfl] at h4
      injection h4 with h4
      exact h1 (by rw [h4])
  · rw [if_neg h0, if_neg h0]
    by_cases hb : g.length ≤ s.length + 2
    · rw [show s.length + 2 = (s.length + 1 + 1 - (g.length - 1)) + (g.length - 1) by omega, countP_range'_append]
      rw [countP_zero (l := List.range' (0 + _) (g.length - 1))]
      · rw [show g.length - 1 + 1 - g.length = 0 by omega, show s.length + 1 + 1 - (g.length - 1) + (g.length - 1) - (g.length - 1) = s.length + 1 + 1 - (g.length - 1) by omega]; rfl
      · intro k hk
        rw [List.mem_range'_1] at hk
        rw [decide_eq_false_iff_not]
        exact no_prefix hi (by rw [padded_length]; omega)
    · rw [show s.length + 1 + 1 - (g.length - 1) = 0 by omega, countP_zero (l := List.range' 0 (s.length + 2))]
      · rfl
      · intro k hk
        rw [decide_eq_false_iff_not]
        exact no_prefix hi (by rw [padded_length]; omega)

/-- No occurrence of a symbol is counted. -/
theorem keys_count {n : Nat} {s : List Str} (h : ∀ w ∈ s, Word w) {g : List Str} (hg : ∀ w ∈ g, Word w) (hi : 1 ≤ g.length) (hn : g.length ≤ n) :
    (keys n s).count (joinWords g) = posCount s g.length (joinWords g) := by
  unfold keys
  rw [List.count_flatMap]
  have : ∀ l : List Nat, (∀ i ∈ l, 1 ≤ i) → l.Nodup → (l.map (List.count (joinWords g) ∘ fun i =>
      (List.range' (leftmost i) (rightmost s.length i + 1 - leftmost i)).map fun j => cad s i j)).sum =
      if g.length ∈ l then posCount s g.length (joinWords g) else 0 := by
    intro l
    induction l with
    | nil => intro _ _; rfl
    | cons a l ih =>
      intro hl hnd
      obtain ⟨ha, hnd⟩ := List.nodup_cons.1 hnd
      rw [List.map_cons, List.sum_cons, ih (fun i hi => hl i (List.mem_cons_of_mem _ hi)) hnd]
      show posCount s a (joinWords g) + _ = _
      by_cases he : g.length = a
      · subst he
        rw [if_neg ha, if_pos List.mem_cons_self, Nat.add_zero]
      · rw [posCount_other h hg (hl a List.mem_cons_self) he, Nat.zero_add]
        have hiff : g.length ∈ a :: l ↔ g.length ∈ l := by
          rw [List.mem_cons]; exact ⟨fun hc => hc.resolve_left he, Or.inr⟩
        simp only [hiff]
  rw [this _ (by intro i hi; rw [List.mem_range'_1] at hi; omega) List.nodup_range', if_pos (by rw [List.mem_range'_1]; omega)]

/-- The texts counted are those of n-grams. -/
theorem keys_mem {n : Nat} {s : List Str} (h : ∀ w ∈ s, Word w) {k : Str} (hk : k ∈ keys n s) :
    ∃ g : List Str, k = joinWords g ∧ 1 ≤ g.length ∧ g.length ≤ n ∧ ∀ w ∈ g, w ∈ padded s := by
  unfold keys at hk
  obtain ⟨i, hi, hk⟩ := List.mem_flatMap.1 hk
  obtain ⟨j, hj, rfl⟩ := List.mem_map.1 hk
  rw [List.mem_range'_1] at hi hj
  refine ⟨_, cad_eq h hi.1 hj.1 (by omega), ?_, ?_, ?_⟩
  · rw [window_length hi.1 hj.1 (by omega)]; omega
  · rw [window_length hi.1 hj.1 (by omega)]; omega
  · intro w hw
    exact List.mem_of_mem_drop (List.mem_of_mem_take hw)

end Thot.NgramScripts
