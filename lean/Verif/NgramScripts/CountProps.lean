import Verif.NgramScripts.Count
/-!
C248: the counts of n-grams (the tables and the theorem).
-/
namespace Thot.NgramScripts

open Thot
open Thot.SentHandler (joinWords Word fields_join)
open Thot.Awk (fields)
open Thot.Vocab (showNat)
open Thot.AMap (lk put Distinct)
open Thot.PhrTools (join_append join_inj)

/-! ### The array -/

theorem lk_bump (m : List (Str × Nat)) (k k' : Str) : lk (bump m k) k' = if k' = k then some ((lk m k).getD 0 + 1) else lk m k' := by
  unfold bump
  cases h : lk m k with
  | none =>
    simp only [AMap.lk_put]
    by_cases e : k' = k
    · simp [e]
    · rw [if_neg e, if_neg e]
  | some c =>
    simp only [AMap.lk_put]
    by_cases e : k' = k
    · simp [e]
    · rw [if_neg e, if_neg e]

theorem distinct_bump {m : List (Str × Nat)} (h : Distinct m) (k : Str) : Distinct (bump m k) := by
  unfold bump
  cases lk m k with
  | none => exact AMap.distinct_put h _ _
  | some c => exact AMap.distinct_put h _ _

theorem lk_fold (l : List Str) (k : Str) : ∀ m : List (Str × Nat), lk (l.foldl bump m) k = if k ∈ l then some ((lk m k).getD 0 + l.count k) else lk m k := by
  induction l with
  | nil => intro m; rfl
  | cons a l ih =>
    intro m
    rw [List.foldl_cons, ih, lk_bump]
    by_cases e : k = a
    · subst e
      rw [if_pos rfl, if_pos List.mem_cons_self, List.count_cons_self]
      by_cases hk : k ∈ l
      · rw [if_pos hk]; simp; omega
      · rw [if_neg hk, List.count_eq_zero.2 hk]
    · rw [if_neg e, List.count_cons_of_ne (fun h => e h.symm)]
      have hiff : k ∈ a :: l ↔ k ∈ l := by rw [List.mem_cons]; exact ⟨fun h => h.resolve_left e, Or.inr⟩
      simp only [hiff]

theorem distinct_fold (l : List Str) : ∀ m : List (Str × Nat), Distinct m → Distinct (l.foldl bump m) := by
  induction l with
  | nil => intro m h; exact h
  | cons a l ih => intro m h; exact ih _ (distinct_bump h a)

/-! ### The variables at the end -/

theorem fold_lines (n : Nat) : ∀ (corpus : List (List Str)) (st : CSt), (∀ s ∈ corpus, ∀ w ∈ s, Word w) →
    (corpus.map joinWords).foldl (addLine n) st =
      { words := st.words + (corpus.map fun s => s.length + 2).sum, sents := st.sents + corpus.length, freq := (corpus.flatMap (keys n)).foldl bump st.freq } := by
  intro corpus
  induction corpus with
  | nil => intro st _; rfl
  | cons s corpus ih =>
    intro st h
    rw [List.map_cons, List.foldl_cons, ih _ fun s' hs' => h s' (List.mem_cons_of_mem _ hs')]
    unfold addLine
    rw [fields_join (h s List.mem_cons_self)]
    simp only [List.map_cons, List.sum_cons, List.length_cons, List.flatMap_cons, List.foldl_append]
    congr 1 <;> omega

theorem occ_nil (l : List Str) : occ [] l = l.length := by
  unfold occ
  rw [List.countP_eq_length.2]
  · simp
  · intro k _; simp

theorem total_nil (corpus : List (List Str)) : total [] corpus = (corpus.map fun s => s.length + 2).sum := by
  unfold total
  simp only [occ_nil, padded_length]

/-- The symbols occur once in each sentence. -/
theorem occ_symbol {s : List Str} {x : Str} (hx : x = "<s>".toList ∨ x = "</s>".toList) (hs : ∀ w ∈ s, w ≠ "<s>".toList ∧ w ≠ "</s>".toList) :
    occ [x] (padded s) = 1 := by
  have hin : ∀ k, k < (padded s).length → ((decide ([x] <+: (padded s).drop k) : Bool) = true ↔ (padded s)[k]? = some x) := by
    intro k hk
    rw [decide_eq_true_eq, prefix_iff_take]
    have : ((padded s).drop k).take 1 = [(padded s)[k]] := by
      rw [List.drop_eq_getElem_cons hk]; rfl
    rw [List.length_singleton, this, List.getElem?_eq_getElem hk]
    simp
  unfold occ
  rw [padded_length, List.range_eq_range', show s.length + 2 = 1 + (s.length + 1) by omega, countP_range'_append, countP_range'_append]
  have h1 : (List.range' (0 + 1) s.length).countP (fun k => decide ([x] <+: (padded s).drop k)) = 0 := by
    rw [List.countP_eq_zero]
    intro k hk
    rw [List.mem_range'_1] at hk
    rw [hin k (by rw [padded_length]; omega), padded_get, if_neg (by omega), if_neg (by omega)]
    intro hc
    have := hs x (List.mem_of_getElem? hc)
    rcases hx with h | h
    · exact this.1 h
    · exact this.2 h
  have hne : "<s>".toList ≠ "</s>".toList := by decide
  have h2 : (List.range' 0 1).countP (fun k => decide ([x] <+: (padded s).drop k)) = if x = "<s>".toList then 1 else 0 := by
    show ([0] : List Nat).countP _ = _
    rw [List.countP_singleton]
    have := hin 0 (by rw [padded_length]; omega)
    rw [padded_get, if_pos rfl] at this
    simp only [Option.some.injEq] at this
    by_cases he : x = "<s>".toList
    · rw [if_pos he, if_pos (this.2 he.symm)]
    · rw [if_neg he, if_neg fun hc => he (this.1 hc).symm]
  have h3 : (List.range' (0 + 1 + s.length) 1).countP (fun k => decide ([x] <+: (padded s).drop k)) = if x = "</s>".toList then 1 else 0 := by
    show ([0 + 1 + s.length] : List Nat).countP _ = _
    rw [List.countP_singleton]
    have := hin (0 + 1 + s.length) (by rw [padded_length]; omega)
    rw [padded_get, if_neg (by omega), if_pos (by omega)] at this
    simp only [Option.some.injEq] at this
    by_cases he : x = "</s>".toList
    · rw [if_pos he, if_pos (this.2 he.symm)]
    · rw [if_neg he, if_neg fun hc => he (this.1 hc).symm]
  rw [h1, h2, h3]
  rcases hx with rfl | rfl
  · rw [if_pos rfl, if_neg hne]
  · rw [if_pos rfl, if_neg hne.symm]

theorem sum_ones {α : Type} (l : List α) : (l.map fun _ => 1).sum = l.length := by
  induction l with
  | nil => rfl
  | cons a l ih => rw [List.map_cons, List.sum_cons, ih, List.length_cons]; omega

theorem sum_zeros {α : Type} {f : α → Nat} {l : List α} (h : ∀ a ∈ l, f a = 0) : (l.map f).sum = 0 := by
  induction l with
  | nil => rfl
  | cons a l ih => rw [List.map_cons, List.sum_cons, ih (fun b hb => h b (List.mem_cons_of_mem _ hb)), h a List.mem_cons_self]

theorem total_symbol {corpus : List (List Str)} {x : Str} (hx : x = "<s>".toList ∨ x = "</s>".toList) (hc : Corpus corpus) :
    total [x] corpus = corpus.length := by
  unfold total
  have : corpus.map (fun s => occ [x] (padded s)) = corpus.map fun _ => 1 :=
    List.map_congr_left fun s hs => occ_symbol hx fun w hw => (hc s hs w hw).2
  rw [this]
  exact sum_ones corpus

theorem count_all {n : Nat} {corpus : List (List Str)} (hc : Corpus corpus) {g : List Str} (hg : ∀ w ∈ g, Word w) (hi : 1 ≤ g.length) (hn : g.length ≤ n)
    (h1 : g ≠ ["<s>".toList]) (h2 : g ≠ ["</s>".toList]) : (corpus.flatMap (keys n)).count (joinWords g) = total g corpus := by
  unfold total
  rw [List.count_flatMap]
  congr 1
  apply List.map_congr_left
  intro s hs
  have hw := fun w hw => (hc s hs w hw).1
  show (keys n s).count (joinWords g) = _
  rw [keys_count hw hg hi hn, posCount_occ hw hg hi h1 h2]

theorem mem_all {n : Nat} {corpus : List (List Str)} (hc : Corpus corpus) {k : Str} (hk : k ∈ corpus.flatMap (keys n)) :
    ∃ g : List Str, k = joinWords g ∧ 1 ≤ g.length ∧ g.length ≤ n ∧ ∀ w ∈ g, Word w := by
  obtain ⟨s, hs, hk⟩ := List.mem_flatMap.1 hk
  have hw := fun w hw => (hc s hs w hw).1
  obtain ⟨g, h1, h2, h3, h4⟩ := keys_mem hw hk
  exact ⟨g, h1, h2, h3, fun w hw' => padded_words hw w (h4 w hw')⟩

theorem total_words {corpus : List (List Str)} (hc : Corpus corpus) {g : List Str} (h : 0 < total g corpus) : ∀ w ∈ g, Word w := by
  unfold total at h
  have : ∃ s ∈ corpus, 0 < occ g (padded s) := by
    apply Classical.byContradiction
    intro hno
    have : (corpus.map fun s => occ g (padded s)).sum = 0 := by
      apply sum_zeros
      intro s hs
      exact Nat.eq_zero_of_not_pos fun hp => hno ⟨s, hs, hp⟩
    omega
  obtain ⟨s, hs, ho⟩ := this
  unfold occ at ho
  obtain ⟨k, _, hk⟩ := List.countP_pos_iff.1 ho
  intro w hw
  have := (of_decide_eq_true hk).subset hw
  exact padded_words (fun w hw => (hc s hs w hw).1) w (List.mem_of_mem_drop this)

/-- The array at the end. -/
theorem lk_final {n : Nat} {corpus : List (List Str)} (hne : corpus ≠ []) (hc : Corpus corpus) {g : List Str} (hg : ∀ w ∈ g, Word w)
    (hi : 1 ≤ g.length) (hn : g.length ≤ n) :
    lk (countAll n (corpus.map joinWords)).freq (joinWords g) = if 0 < total g corpus then some (total g corpus) else none := by
  unfold countAll
  rw [fold_lines n corpus _ fun s hs w hw => (hc s hs w hw).1]
  simp only
  rw [AMap.lk_put, AMap.lk_put, lk_fold]
  have hlen : 0 < corpus.length := List.length_pos_iff.2 hne
  have hinj : ∀ x, Word x → joinWords g = x → g = [x] := by
    intro x hx he
    exact join_inj hg (by intro v hv; rw [List.mem_singleton] at hv; rw [hv]; exact hx) (show joinWords g = joinWords [x] from he)
  by_cases e2 : joinWords g = "</s>".toList
  · rw [if_pos e2, hinj _ word_eos e2, total_symbol (Or.inr rfl) hc, if_pos hlen, Nat.zero_add]
  · rw [if_neg e2]
    by_cases e1 : joinWords g = "<s>".toList
    · rw [if_pos e1, hinj _ word_bos e1, total_symbol (Or.inl rfl) hc, if_pos hlen, Nat.zero_add]
    · rw [if_neg e1]
      have hcount := count_all (n := n) hc hg hi hn (fun h => e1 (by rw [h]; rfl)) (fun h => e2 (by rw [h]; rfl))
      have hmem : joinWords g ∈ corpus.flatMap (keys n) ↔ 0 < total g corpus := by rw [← hcount, List.count_pos_iff]
      simp only [hmem, hcount]
      show (if _ then some (0 + total g corpus) else none) = _
      rw [Nat.zero_add]

theorem final_mem {n : Nat} (hn1 : 1 ≤ n) {corpus : List (List Str)} (hc : Corpus corpus) {e : Str × Nat}
    (he : e ∈ (countAll n (corpus.map joinWords)).freq) : ∃ g : List Str, e.1 = joinWords g ∧ 1 ≤ g.length ∧ g.length ≤ n ∧ ∀ w ∈ g, Word w := by
  have hd : Distinct (countAll n (corpus.map joinWords)).freq := by
    unfold countAll
    rw [fold_lines n corpus _ fun s hs w hw => (hc s hs w hw).1]
    exact AMap.distinct_put (AMap.distinct_put (distinct_fold _ _ AMap.distinct_nil) _ _) _ _
  have hl := (AMap.lk_some_iff hd).2 (show (e.1, e.2) ∈ _ from he)
  unfold countAll at hl
  rw [fold_lines n corpus _ fun s hs w hw => (hc s hs w hw).1] at hl
  simp only at hl
  rw [AMap.lk_put, AMap.lk_put, lk_fold] at hl
  by_cases e2 : e.1 = "</s>".toList
  · exact ⟨["</s>".toList], e2, by simp, by simpa using hn1, by intro v hv; rw [List.mem_singleton] at hv; rw [hv]; exact word_eos⟩
  · rw [if_neg e2] at hl
    by_cases e1 : e.1 = "<s>".toList
    · exact ⟨["<s>".toList], e1, by simp, by simpa using hn1, by intro v hv; rw [List.mem_singleton] at hv; rw [hv]; exact word_bos⟩
    · rw [if_neg e1] at hl
      by_cases hm : e.1 ∈ corpus.flatMap (keys n)
      · exact mem_all hc hm
      · rw [if_neg hm] at hl; cases hl

theorem flat_join (g : List Str) (a b : Str) : ((g.map fun w => w ++ [' ']).flatten ++ a ++ ' ' :: b) = joinWords (g ++ [a, b]) := by
  induction g with
  | nil => rfl
  | cons w g ih =>
    have : joinWords (w :: (g ++ [a, b])) = w ++ ' ' :: joinWords (g ++ [a, b]) := by
      cases g <;> rfl
    rw [List.cons_append, this, ← ih, List.map_cons, List.flatten_cons]
    simp

/-- `thot_get_ngram_counts`: whatever the order in which the array is visited, the output has one line for each n-gram that occurs in the
corpus, up to the order given, with the number of occurrences of its history and of the n-gram. -/
theorem C248_counts (n : Nat) (hn : 1 ≤ n) (corpus : List (List Str)) (hne : corpus ≠ []) (hc : Corpus corpus) (out : List Str)
    (h : IsOutput n (corpus.map joinWords) out) : CountsOf n corpus out := by
  obtain ⟨order, hperm, rfl⟩ := h
  have hd : Distinct (countAll n (corpus.map joinWords)).freq := by
    unfold countAll
    rw [fold_lines n corpus _ fun s hs w hw => (hc s hs w hw).1]
    exact AMap.distinct_put (AMap.distinct_put (distinct_fold _ _ AMap.distinct_nil) _ _) _ _
  have hkey : ∀ e ∈ order, ∃ g : List Str, e.1 = joinWords g ∧ 1 ≤ g.length ∧ g.length ≤ n ∧ ∀ w ∈ g, Word w :=
    fun e he => final_mem hn hc (hperm.mem_iff.1 he)
  have hf : ∀ e ∈ order, joinWords (fields ' ' e.1) = e.1 ∧ 1 ≤ (fields ' ' e.1).length ∧ (fields ' ' e.1).length ≤ n ∧ ∀ w ∈ fields ' ' e.1, Word w := by
    intro e he
    obtain ⟨g, h1, h2, h3, h4⟩ := hkey e he
    rw [h1, fields_join h4]
    exact ⟨rfl, h2, h3, h4⟩
  refine ⟨order.map fun e => fields ' ' e.1, ?_, ?_, ?_⟩
  · rw [List.nodup_iff_pairwise_ne, List.pairwise_map]
    have hnd : (order.map Prod.fst).Nodup := (hperm.map _).nodup_iff.2 hd
    rw [List.nodup_iff_pairwise_ne, List.pairwise_map] at hnd
    refine List.Pairwise.imp_of_mem ?_ hnd
    intro a b ha hb hab heq
    exact hab (by rw [← (hf a ha).1, heq, (hf b hb).1])
  · intro g
    constructor
    · intro hg
      obtain ⟨e, he, rfl⟩ := List.mem_map.1 hg
      obtain ⟨h1, h2, h3, h4⟩ := hf e he
      refine ⟨h2, h3, ?_⟩
      have hl := (AMap.lk_some_iff hd).2 (show (e.1, e.2) ∈ _ from hperm.mem_iff.1 he)
      rw [← h1, lk_final hne hc h4 h2 h3] at hl
      by_cases hp : 0 < total (fields ' ' e.1) corpus
      · exact hp
      · rw [if_neg hp] at hl; cases hl
    · rintro ⟨h1, h2, h3⟩
      have hw := total_words hc h3
      have hl := lk_final hne hc hw h1 h2
      rw [if_pos h3] at hl
      refine List.mem_map.2 ⟨_, hperm.mem_iff.2 ((AMap.lk_some_iff hd).1 hl), ?_⟩
      simp only
      rw [fields_join hw]
  · rw [List.map_map]
    apply List.map_congr_left
    intro e he
    obtain ⟨h1, h2, h3, h4⟩ := hf e he
    have hl := (AMap.lk_some_iff hd).2 (show (e.1, e.2) ∈ _ from hperm.mem_iff.1 he)
    rw [← h1, lk_final hne hc h4 h2 h3] at hl
    have hval : e.2 = total (fields ' ' e.1) corpus := by
      by_cases hp : 0 < total (fields ' ' e.1) corpus
      · rw [if_pos hp] at hl; injection hl with hl; exact hl.symm
      · rw [if_neg hp] at hl; cases hl
    have hhist : histCount (countAll n (corpus.map joinWords)) e.1 = total (fields ' ' e.1).dropLast corpus := by
      unfold histCount
      by_cases h0 : (fields ' ' e.1).length = 1
      · rw [if_pos h0]
        obtain ⟨w, hw⟩ := List.length_eq_one_iff.1 h0
        rw [hw]
        show _ = total [] corpus
        rw [total_nil]
        unfold countAll
        rw [fold_lines n corpus _ fun s hs w hw => (hc s hs w hw).1]
        simp
      · rw [if_neg h0, lk_final hne hc (fun w hw => h4 w (List.dropLast_subset _ hw)) (by rw [List.length_dropLast]; omega)
          (by rw [List.length_dropLast]; omega)]
        by_cases hp : 0 < total (fields ' ' e.1).dropLast corpus
        · rw [if_pos hp]; rfl
        · rw [if_neg hp]; show 0 = _; omega
    show printLine _ e = ngramLine corpus (fields ' ' e.1)
    unfold printLine ngramLine
    rw [flat_join, hhist, hval]

/-! ### Non-vacuity -/

/-- The corpus "a b a", "b" has the bigram "a b" once, the word "a" twice, eight words with the symbols. -/
example : Corpus [[['a'], ['b'], ['a']], [['b']]] ∧ total [['a'], ['b']] [[['a'], ['b'], ['a']], [['b']]] = 1 ∧
    total [['a']] [[['a'], ['b'], ['a']], [['b']]] = 2 ∧ total [] [[['a'], ['b'], ['a']], [['b']]] = 8 ∧
    total [['b'], "</s>".toList] [[['a'], ['b'], ['a']], [['b']]] = 1 := by
  refine ⟨?_, by decide +kernel, by decide +kernel, by decide +kernel, by decide +kernel⟩
  intro s hs w hw
  have : w = ['a'] ∨ w = ['b'] := by
    simp only [List.mem_cons, List.not_mem_nil, or_false] at hs
    rcases hs with rfl | rfl
    · simp only [List.mem_cons, List.not_mem_nil, or_false] at hw; rcases hw with h | h | h <;> simp [h]
    · simp only [List.mem_cons, List.not_mem_nil, or_false] at hw; simp [hw]
  rcases this with rfl | rfl
  · exact ⟨⟨by decide, by decide⟩, by decide, by decide⟩
  · exact ⟨⟨by decide, by decide⟩, by decide, by decide⟩

end Thot.NgramScripts
