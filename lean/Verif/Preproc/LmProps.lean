import Verif.Preproc.LmModel
import Verif.Preproc.TmIo
/-!
C253, C254: the counts of the language model; printing and loading.
-/
namespace Thot.Preproc

open Thot
open Thot.SentHandler (joinWords Word fields_join)
open Thot.Awk (fields)
open Thot.Vocab (showNat)
open Thot.AMap (lk put Distinct)
open Thot.PhrTools (join_append join_inj)

/-! ### Specification -/

/-- A sentence between the marks of begin and end. -/
def padS (w : List Str) : List Str := "<bos>".toList :: (w ++ ["<eos>".toList])

/-- The number of times a list of words occurs in a sentence. -/
def occurs (g p : List Str) : Nat := ((List.range p.length).filter fun j => decide (g <+: p.drop j)).length

/-- The occurrences of an n-gram that have to be counted: the mark of begin alone is not. -/
def wanted (n : Nat) (g w : List Str) : Nat :=
  if n < g.length then 0 else if g = ["<bos>".toList] then occurs g (padS w) - 1 else occurs g (padS w)

/-- A corpus: lines of words. -/
def Corpus (ws : List (List Str)) : Prop := ∀ w ∈ ws, ∀ x ∈ w, Word x

/-! ### Counting -/

theorem count_inc (ng : List (Str × Nat)) (g : Str) (c : Nat) (g' : Str) :
    (lk (incNg ng g c) g').getD 0 = (lk ng g').getD 0 + if g = g' then c else 0 := by
  unfold incNg
  cases h : lk ng g with
  | none =>
    simp only [AMap.lk_put]
    by_cases e : g' = g
    · subst e; rw [if_pos rfl, if_pos rfl, h]; simp
    · rw [if_neg e, if_neg (fun h => e h.symm)]; rfl
  | some k =>
    simp only [AMap.lk_put]
    by_cases e : g' = g
    · subst e; rw [if_pos rfl, if_pos rfl, h]; rfl
    · rw [if_neg e, if_neg (fun h => e h.symm)]; rfl

/-- One position of one pass. -/
def hit (aux : List Str) (g : Str) (i j : Nat) : Nat :=
  if (i ≠ 1 ∨ j ≠ 0) ∧ joinWords ((aux.drop j).take i) = g then 1 else 0

theorem count_at (aux : List Str) (i : Nat) (ng : List (Str × Nat)) (j : Nat) (g : Str) :
    (lk (countAt aux i ng j) g).getD 0 = (lk ng g).getD 0 + hit aux g i j := by
  unfold countAt hit
  by_cases h : i ≠ 1 ∨ j ≠ 0
  · rw [if_pos h, count_inc]
    by_cases e : joinWords ((aux.drop j).take i) = g
    · rw [if_pos e, if_pos ⟨h, e⟩]
    · rw [if_neg e, if_neg (fun x => e x.2)]
  · rw [if_neg h, if_neg (fun x => h x.1)]; rfl

theorem fold_count {α : Type} (step : List (Str × Nat) → α → List (Str × Nat)) (f : α → Nat) (g : Str)
    (hs : ∀ ng a, (lk (step ng a) g).getD 0 = (lk ng g).getD 0 + f a) (l : List α) (ng : List (Str × Nat)) :
    (lk (l.foldl step ng) g).getD 0 = (lk ng g).getD 0 + (l.map f).sum := by
  induction l generalizing ng with
  | nil => simp
  | cons a l ih => rw [List.foldl_cons, ih, hs, List.map_cons, List.sum_cons]; omega

theorem count_trainArr (m : LM) (w : List Str) (g : Str) : (m.trainArr w).count g = m.count g + (if [] = g then w.length else 0) +
    ((List.range' 1 m.n).map fun i => ((List.range (auxArr w).length).map (hit (auxArr w) g i)).sum).sum := by
  show (lk (List.foldl _ _ _) g).getD 0 = _
  rw [fold_count _ (fun i => ((List.range (auxArr w).length).map (hit (auxArr w) g i)).sum) g
    (fun ng i => fold_count _ _ g (fun ng j => count_at _ i ng j g) _ ng), count_inc]
  rfl

theorem n_trainArr (m : LM) (w : List Str) : (m.trainArr w).n = m.n := rfl

/-! ### The passes -/

theorem padS_words {w : List Str} (hw : ∀ x ∈ w, Word x) : ∀ x ∈ padS w, Word x := by
  intro x hx
  rcases List.mem_cons.1 hx with rfl | hx
  · exact ⟨by decide, by decide⟩
  · rcases List.mem_append.1 hx with hx | hx
    · exact hw x hx
    · rw [List.mem_singleton.1 hx]; exact ⟨by decide, by decide⟩

theorem take_join {p g : List Str} (hp : ∀ x ∈ p, Word x) (hg : ∀ x ∈ g, Word x) (i j : Nat) :
    joinWords ((p.drop j).take i) = joinWords g ↔ (p.drop j).take i = g := by
  constructor
  · intro h
    have h1 : fields ' ' (joinWords ((p.drop j).take i)) = (p.drop j).take i :=
      fields_join fun x hx => hp x (List.mem_of_mem_drop (List.mem_of_mem_take hx))
    have h2 : fields ' ' (joinWords g) = g := fields_join hg
    rw [← h1, h, h2]
  · intro h; rw [h]

theorem sum_const0 {α : Type} (l : List α) (f : α → Nat) (h : ∀ a ∈ l, f a = 0) : (l.map f).sum = 0 := by
  induction l with
  | nil => rfl
  | cons a l ih => rw [List.map_cons, List.sum_cons, h a List.mem_cons_self, ih fun b hb => h b (List.mem_cons_of_mem _ hb)]

theorem sum_ind {α : Type} (l : List α) (p : α → Prop) [DecidablePred p] : (l.map fun a => if p a then 1 else 0).sum = (l.filter fun a => decide (p a)).length := by
  induction l with
  | nil => rfl
  | cons a l ih =>
    rw [List.map_cons, List.sum_cons, ih]
    by_cases h : p a
    · rw [if_pos h, List.filter_cons_of_pos (by simpa using h), List.length_cons]; omega
    · rw [if_neg h, List.filter_cons_of_neg (by simpa using h)]; omega

/-- A pass of the right length. -/
theorem pass_eq {p g : List Str} (hp : ∀ x ∈ p, Word x) (hg : ∀ x ∈ g, Word x) :
    ((List.range p.length).map (hit p (joinWords g) g.length)).sum =
      ((List.range p.length).filter fun j => decide ((g.length ≠ 1 ∨ j ≠ 0) ∧ g <+: p.drop j)).length := by
  rw [← sum_ind]
  congr 1
  apply List.map_congr_left
  intro j _
  unfold hit
  have : joinWords ((p.drop j).take g.length) = joinWords g ↔ g <+: p.drop j := by
    rw [take_join hp hg, List.prefix_iff_eq_take]
    exact eq_comm
  simp only [this]

theorem filter_zero (n : Nat) (q : Nat → Bool) (hn : 0 < n) (h0 : q 0 = true) :
    ((List.range n).filter fun j => decide (j ≠ 0) && q j).length = ((List.range n).filter q).length - 1 := by
  obtain ⟨m, rfl⟩ : ∃ m, n = m + 1 := ⟨n - 1, by omega⟩
  rw [List.range_succ_eq_map, List.filter_cons_of_neg (by simp), List.filter_cons_of_pos h0, List.length_cons, List.filter_map, List.filter_map,
    List.length_map, List.length_map]
  simp [Function.comp_def]

theorem filter_nonzero (n : Nat) (q : Nat → Bool) (h0 : q 0 = false) :
    ((List.range n).filter fun j => decide (j ≠ 0) && q j) = (List.range n).filter q := by
  apply List.filter_congr
  intro j _
  by_cases h : j = 0
  · subst h; simp [h0]
  · simp [h]

theorem pass_wanted {w g : List Str} (hw : ∀ x ∈ w, Word x) (hg : ∀ x ∈ g, Word x) (hne : g ≠ []) :
    ((List.range (padS w).length).map (hit (padS w) (joinWords g) g.length)).sum =
      if g = ["<bos>".toList] then occurs g (padS w) - 1 else occurs g (padS w) := by
  rw [pass_eq (padS_words hw) hg]
  by_cases h1 : g.length = 1
  · have e : ((List.range (padS w).length).filter fun j => decide ((g.length ≠ 1 ∨ j ≠ 0) ∧ g <+: (padS w).drop j)) =
        (List.range (padS w).length).filter fun j => decide (j ≠ 0) && decide (g <+: (padS w).drop j) := by
      apply List.filter_congr
      intro j _
      simp [h1]
    rw [e]
    obtain ⟨x, rfl⟩ := List.length_eq_one_iff.1 h1
    by_cases hb : [x] = ["<bos>".toList]
    · rw [if_pos hb, filter_zero _ _ (by simp [padS])]
      · rfl
      · rw [hb]; simp [padS]
    · rw [if_neg hb, filter_nonzero]
      · rfl
      · have hx : x ≠ "<bos>".toList := fun h => hb (by rw [h])
        simp only [padS, List.drop_zero, decide_eq_false_iff_not]
        rw [List.cons_prefix_cons]
        exact fun h => hx h.1
  · have e : ((List.range (padS w).length).filter fun j => decide ((g.length ≠ 1 ∨ j ≠ 0) ∧ g <+: (padS w).drop j)) =
        (List.range (padS w).length).filter fun j => decide (g <+: (padS w).drop j) := by
      apply List.filter_congr
      intro j _
      simp [h1]
    rw [e, if_neg (by intro h; rw [h] at h1; exact h1 rfl)]
    rfl

theorem pass_short {p g : List Str} (hp : ∀ x ∈ p, Word x) (hg : ∀ x ∈ g, Word x) {i : Nat} (hi : i < g.length) :
    ((List.range p.length).map (hit p (joinWords g) i)).sum = 0 := by
  apply sum_const0
  intro j _
  unfold hit
  rw [if_neg]
  rintro ⟨_, h⟩
  rw [take_join hp hg] at h
  have := congrArg List.length h
  rw [List.length_take] at this
  omega

theorem one_range {k n : Nat} (h : k < n) : ((List.range n).filter fun j => j == k).length = 1 := by
  induction n with
  | zero => omega
  | succ n ih =>
    rw [List.range_succ, List.filter_append, List.length_append]
    by_cases e : k = n
    · subst e
      have : (List.range k).filter (fun j => j == k) = [] := by
        rw [List.filter_eq_nil_iff]
        intro j hj
        rw [List.mem_range] at hj
        simp; omega
      rw [this]; simp
    · rw [ih (by omega), List.filter_cons_of_neg (by simpa using fun h => e h.symm)]; rfl

theorem pass_long {p g : List Str} (hp : ∀ x ∈ p, Word x) (hg : ∀ x ∈ g, Word x) (hne : g ≠ []) {i : Nat} (hi : g.length < i) :
    ((List.range p.length).map (hit p (joinWords g) i)).sum = if g <:+ p then 1 else 0 := by
  have hlen : 0 < g.length := List.length_pos_iff.2 hne
  have key : ∀ j, joinWords ((p.drop j).take i) = joinWords g ↔ p.drop j = g := by
    intro j
    rw [take_join hp hg]
    constructor
    · intro h
      have hl := congrArg List.length h
      rw [List.length_take, List.length_drop] at hl
      rw [List.take_of_length_le (by rw [List.length_drop]; omega)] at h
      exact h
    · intro h
      rw [h]
      exact List.take_of_length_le (by omega)
  have e : ((List.range p.length).map (hit p (joinWords g) i)).sum = ((List.range p.length).filter fun j => decide (p.drop j = g)).length := by
    rw [← sum_ind]
    congr 1
    apply List.map_congr_left
    intro j _
    unfold hit
    have : i ≠ 1 := by omega
    simp only [key, this, ne_eq, not_false_eq_true, true_or, true_and]
  rw [e]
  by_cases hs : g <:+ p
  · rw [if_pos hs]
    have hd := List.suffix_iff_eq_drop.1 hs
    have hl := hs.length_le
    have : ((List.range p.length).filter fun j => decide (p.drop j = g)) = (List.range p.length).filter fun j => j == p.length - g.length := by
      apply List.filter_congr
      intro j hj
      rw [List.mem_range] at hj
      rw [Bool.eq_iff_iff, decide_eq_true_iff, beq_iff_eq]
      constructor
      · intro h
        have := congrArg List.length h
        rw [List.length_drop] at this
        omega
      · intro h; rw [h]; exact hd.symm
    rw [this]
    exact one_range (by omega)
  · rw [if_neg hs]
    rw [List.length_eq_zero_iff, List.filter_eq_nil_iff]
    intro j _ h
    rw [decide_eq_true_iff] at h
    exact hs (by rw [← h]; exact List.drop_suffix _ _)

/-- The sum of all the passes. -/
theorem passes {w g : List Str} (hw : ∀ x ∈ w, Word x) (hg : ∀ x ∈ g, Word x) (hne : g ≠ []) (n : Nat) :
    ((List.range' 1 n).map fun i => ((List.range (padS w).length).map (hit (padS w) (joinWords g) i)).sum).sum =
      wanted n g w + if g <:+ padS w then n - g.length else 0 := by
  have hlen : 0 < g.length := List.length_pos_iff.2 hne
  unfold wanted
  induction n with
  | zero => rw [if_pos hlen]; simp
  | succ n ih =>
    rw [List.range'_concat, List.map_append, List.sum_append, ih]
    simp only [List.map_cons, List.map_nil, List.sum_cons, List.sum_nil, Nat.one_mul, Nat.add_zero]
    rcases Nat.lt_trichotomy (1 + n) g.length with h | h | h
    · rw [pass_short (padS_words hw) hg h, if_pos (show n < g.length by omega), if_pos (show n + 1 < g.length by omega)]
      have : n - g.length = 0 := by omega
      have : n + 1 - g.length = 0 := by omega
      simp [*]
    · rw [h, pass_wanted hw hg hne, if_pos (by omega), if_neg (show ¬ n + 1 < g.length by omega)]
      have : n - g.length = 0 := by omega
      have : n + 1 - g.length = 0 := by omega
      simp [*]
    · rw [pass_long (padS_words hw) hg hne h, if_neg (by omega), if_neg (show ¬ n + 1 < g.length by omega)]
      by_cases hs : g <:+ padS w
      · simp only [if_pos hs]; omega
      · simp only [if_neg hs]

theorem passes_nil {w : List Str} (hw : ∀ x ∈ w, Word x) (n : Nat) :
    ((List.range' 1 n).map fun i => ((List.range (padS w).length).map (hit (padS w) [] i)).sum).sum = 0 := by
  apply sum_const0
  intro i hi
  apply sum_const0
  intro j hj
  rw [List.mem_range] at hj
  have hi := (List.mem_range'_1.1 hi).1
  unfold hit
  rw [if_neg]
  rintro ⟨_, h⟩
  have := (take_join (p := padS w) (g := []) (padS_words hw) (by simp) i j).1 h
  have := congrArg List.length this
  rw [List.length_take, List.length_drop, List.length_nil] at this
  omega

/-! ### Corpora -/

theorem train_n (n : Nat) (ws : List (List Str)) : (LM.train n ws).n = n := by
  unfold LM.train
  generalize h : (⟨n, []⟩ : LM) = m
  have : m.n = n := by rw [← h]
  clear h
  induction ws generalizing m with
  | nil => exact this
  | cons w ws ih => exact ih _ this

theorem train_snoc (n : Nat) (ws : List (List Str)) (w : List Str) : LM.train n (ws ++ [w]) = (LM.train n ws).trainArr w := by
  unfold LM.train; rw [List.foldl_append]; rfl

theorem train_count (n : Nat) (ws : List (List Str)) (hc : Corpus ws) (g : List Str) (hg : ∀ x ∈ g, Word x) (hne : g ≠ []) :
    (LM.train n ws).count (joinWords g) = (ws.map fun w => wanted n g w + if g <:+ padS w then n - g.length else 0).sum := by
  induction ws using snoc_ind with
  | h0 => rfl
  | h1 ws w ih =>
    have hj : [] ≠ joinWords g := by
      intro h
      have := fields_join hg
      rw [← h] at this
      exact hne (by rw [← this]; rfl)
    have hw : ∀ x ∈ w, Word x := hc w (by simp)
    rw [train_snoc, count_trainArr, ih fun x hx => hc x (by simp [hx]), if_neg hj, train_n]
    have := passes hw hg hne n
    rw [show padS w = auxArr w from rfl] at this
    rw [this, List.map_append, List.sum_append]
    simp [show padS w = auxArr w from rfl]

theorem train_zero (n : Nat) (ws : List (List Str)) (hc : Corpus ws) : (LM.train n ws).count [] = (ws.map List.length).sum := by
  induction ws using snoc_ind with
  | h0 => rfl
  | h1 ws w ih =>
    have hw : ∀ x ∈ w, Word x := hc w (by simp)
    rw [train_snoc, count_trainArr, ih fun x hx => hc x (by simp [hx]), if_pos rfl, train_n]
    have := passes_nil hw n
    rw [show padS w = auxArr w from rfl] at this
    rw [this]
    simp

theorem suffix_eos {g w : List Str} (hs : g <:+ padS w) (hne : g ≠ []) : g.getLast hne = "<eos>".toList := by
  have h1 : g.getLast? = (padS w).getLast? := by
    obtain ⟨t, ht⟩ := hs
    rw [← ht, List.getLast?_append, List.getLast?_eq_some_getLast hne]; rfl
  have h2 : (padS w).getLast? = some "<eos>".toList := by
    show (("<bos>".toList :: w) ++ ["<eos>".toList]).getLast? = _
    exact List.getLast?_concat
  rw [h2, List.getLast?_eq_some_getLast hne] at h1
  exact Option.some.inj h1

/-- The full claim: the count of an n-gram is the number of its occurrences. -/
def C253_full : Prop := ∀ (n : Nat) (ws : List (List Str)), Corpus ws → ∀ g : List Str, g ≠ [] → (∀ x ∈ g, Word x) →
  (LM.train n ws).count (joinWords g) = (ws.map (wanted n g)).sum

def exCorpus : List (List Str) := [[['a']]]

theorem exCorpus_ok : Corpus exCorpus := by
  intro w hw x hx
  rw [List.mem_singleton.1 hw] at hx
  rw [List.mem_singleton.1 hx]
  exact ⟨by decide, by decide⟩

/-- The counts of the language model. The count of the empty n-gram is the number of words; the count of an n-gram that does not end with the
mark of end is the number of its occurrences (without the mark of begin alone); an n-gram at the end of a sentence is counted again in every
longer pass, as the slices of the end are short. So the words are counted exactly, and the mark of end `n` times each line. Missing: the
n-grams of the end (`C253_counterexample`). -/
theorem C253_ngram_counts_partial (n : Nat) (ws : List (List Str)) (hc : Corpus ws) :
    (LM.train n ws).count [] = (ws.map List.length).sum ∧
    ∀ g : List Str, ∀ hne : g ≠ [], (∀ x ∈ g, Word x) →
      (LM.train n ws).count (joinWords g) = (ws.map fun w => wanted n g w + if g <:+ padS w then n - g.length else 0).sum ∧
      (g.getLast hne ≠ "<eos>".toList → (LM.train n ws).count (joinWords g) = (ws.map (wanted n g)).sum) := by
  refine ⟨train_zero n ws hc, fun g hne hg => ⟨train_count n ws hc g hg hne, fun he => ?_⟩⟩
  rw [train_count n ws hc g hg hne]
  congr 1
  apply List.map_congr_left
  intro w _
  rw [if_neg fun h => he (suffix_eos h hne)]; rfl

/-- The mark of end of a line is counted twice by a bigram model. -/
theorem C253_counterexample : ¬ C253_full := by
  intro h
  have := h 2 exCorpus exCorpus_ok ["<eos>".toList] (by simp) (by decide)
  revert this
  decide +kernel

end Thot.Preproc
