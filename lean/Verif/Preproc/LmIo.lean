import Verif.Preproc.LmProps
/-!
C254, C255: the probabilities of the language model; printing and loading.
-/
namespace Thot.Preproc

open Thot
open Thot.SentHandler (joinWords Word fields_join)
open Thot.Awk (fields)
open Thot.Vocab (showNat)
open Thot.AMap (lk put Distinct)
open Thot.PhrTools (join_append join_inj)

/-! ### Probabilities (C254) -/

theorem occurs_one (x : Str) (p : List Str) : occurs [x] p = p.count x := by
  unfold occurs
  induction p with
  | nil => rfl
  | cons y p ih =>
    rw [List.length_cons, List.range_succ_eq_map]
    have e : ((List.map Nat.succ (List.range p.length)).filter fun j => decide ([x] <+: (y :: p).drop j)).length = p.count x := by
      rw [List.filter_map, List.length_map, ← ih]; rfl
    by_cases h : x = y
    · rw [List.filter_cons_of_pos (by simp [h]), List.length_cons, e, h, List.count_cons_self]
    · rw [List.filter_cons_of_neg (by
        simp only [List.drop_zero, decide_eq_true_eq]
        rw [List.cons_prefix_cons]
        exact fun hc => h hc.1), e, List.count_cons_of_ne (fun hc => h hc.symm)]

theorem count_pad {x : Str} (hb : x ≠ "<bos>".toList) (w : List Str) :
    (padS w).count x = w.count x + if x = "<eos>".toList then 1 else 0 := by
  unfold padS
  rw [List.count_cons_of_ne (fun h => hb h.symm), List.count_append]
  congr 1
  by_cases h : x = "<eos>".toList
  · rw [if_pos h, h]; exact List.count_singleton_self
  · rw [if_neg h]; exact List.count_eq_zero_of_not_mem (by simpa using h)

theorem suffix_one (x : Str) (w : List Str) : [x] <:+ padS w ↔ x = "<eos>".toList := by
  constructor
  · intro h; exact suffix_eos h (by simp)
  · rintro rfl; exact ⟨"<bos>".toList :: w, rfl⟩

/-- The numbers of occurrences of a word in the lines. -/
def wordCount (ws : List (List Str)) (x : Str) : Nat := (ws.map (List.count x)).sum

theorem uni_count {n : Nat} (hn : 0 < n) {ws : List (List Str)} (hc : Corpus ws) {x : Str} (hx : Word x) (hb : x ≠ "<bos>".toList) :
    (LM.train n ws).count x = wordCount ws x + if x = "<eos>".toList then n * ws.length else 0 := by
  have h := train_count n ws hc [x] (by simpa using hx) (by simp)
  rw [show joinWords [x] = x from rfl] at h
  rw [h]
  unfold wordCount
  have hwn : ∀ w, wanted n [x] w = w.count x + if x = "<eos>".toList then 1 else 0 := by
    intro w
    unfold wanted
    rw [if_neg (show ¬ n < [x].length by simp; omega), if_neg (by simpa using hb), occurs_one, count_pad hb]
  rw [List.length_singleton]
  simp only [hwn, suffix_one]
  clear h hc
  induction ws with
  | nil => by_cases e : x = "<eos>".toList <;> simp [e]
  | cons w ws ih =>
    rw [List.map_cons, List.sum_cons, List.map_cons, List.sum_cons, ih]
    by_cases e : x = "<eos>".toList
    · simp only [if_pos e, List.length_cons, Nat.mul_add]; omega
    · simp only [if_neg e]; omega

theorem bos_count {n : Nat} (hn : 0 < n) {ws : List (List Str)} (hc : Corpus ws) (hb : ∀ w ∈ ws, "<bos>".toList ∉ w) :
    (LM.train n ws).count "<bos>".toList = 0 := by
  have h := train_count n ws hc ["<bos>".toList] (by decide) (by simp)
  rw [show joinWords ["<bos>".toList] = "<bos>".toList from rfl] at h
  rw [h]
  apply sum_const0
  intro w hw
  unfold wanted
  rw [if_neg (by simp; omega), if_pos rfl, occurs_one, if_neg (fun hs => by
    have := (suffix_one _ _).1 hs
    revert this; decide)]
  have : (padS w).count "<bos>".toList = 1 := by
    unfold padS
    rw [List.count_cons_self, List.count_eq_zero_of_not_mem]
    intro hm
    rcases List.mem_append.1 hm with hm | hm
    · exact hb w hw hm
    · revert hm; decide
  omega

/-- The full claim: the probability of a word is not larger than one. -/
def C254_full : Prop := ∀ (n : Nat) (ws : List (List Str)), Corpus ws → ∀ (x : Str) (p : Rat), Word x → (LM.train n ws).prob x = some p → p ≤ 1

theorem removeNewest_one {x : Str} (hx : Word x) : removeNewest x = [] := by
  have : fields ' ' x = [x] := by
    have := fields_join (ws := [x]) (by simpa using hx)
    exact this
  unfold removeNewest
  rw [this]; rfl

theorem removeNewest_two {x y : Str} (hx : Word x) (hy : Word y) : removeNewest (x ++ ' ' :: y) = x := by
  have : fields ' ' (x ++ ' ' :: y) = [x, y] := by
    have := fields_join (ws := [x, y]) (by simp [hx, hy])
    exact this
  unfold removeNewest
  rw [this]; rfl

theorem prob_word {n : Nat} (hn : 0 < n) {ws : List (List Str)} (hc : Corpus ws) (h0 : 0 < (ws.map List.length).sum) {x : Str} (hx : Word x)
    (hb : x ≠ "<bos>".toList) : (LM.train n ws).prob x =
      some (((wordCount ws x + if x = "<eos>".toList then n * ws.length else 0 : Nat) : Rat) / ((ws.map List.length).sum : Nat)) := by
  unfold LM.prob
  rw [if_neg hx.1, removeNewest_one hx, train_zero n ws hc, if_neg (by omega), uni_count hn hc hx hb]

/-- The probabilities of the words of a trained model are their relative frequencies; that of the mark of end is `n` times the number of lines
over the number of words, and the probability of any word after the mark of begin is zero. Missing: the mark of end has a probability above
one when there are fewer than `n` words a line (`C254_counterexample`). -/
theorem C254_probabilities_partial (n : Nat) (hn : 0 < n) (ws : List (List Str)) (hc : Corpus ws) (h0 : ∃ w ∈ ws, w ≠ [])
    (hm : ∀ w ∈ ws, "<bos>".toList ∉ w ∧ "<eos>".toList ∉ w) :
    (∀ x, Word x → x ≠ "<bos>".toList → x ≠ "<eos>".toList →
      (LM.train n ws).prob x = some ((wordCount ws x : Rat) / ((ws.map List.length).sum : Nat))) ∧
    (LM.train n ws).prob "<eos>".toList = some (((n * ws.length : Nat) : Rat) / ((ws.map List.length).sum : Nat)) ∧
    ∀ x, Word x → (LM.train n ws).prob ("<bos>".toList ++ ' ' :: x) = some 0 := by
  have hpos : 0 < (ws.map List.length).sum := by
    obtain ⟨w, hw, hne⟩ := h0
    have : ∀ l : List (List Str), w ∈ l → 0 < (l.map List.length).sum := by
      intro l hl
      induction l with
      | nil => cases hl
      | cons a l ih =>
        rw [List.map_cons, List.sum_cons]
        rcases List.mem_cons.1 hl with rfl | hl
        · have := List.length_pos_iff.2 hne; omega
        · have := ih hl; omega
    exact this ws hw
  refine ⟨fun x hx hb he => ?_, ?_, fun x hx => ?_⟩
  · rw [prob_word hn hc hpos hx hb, if_neg he]; rfl
  · rw [prob_word hn hc hpos ⟨by decide, by decide⟩ (by decide), if_pos rfl]
    have : wordCount ws "<eos>".toList = 0 := by
      unfold wordCount
      apply sum_const0
      intro w hw
      exact List.count_eq_zero_of_not_mem (hm w hw).2
    rw [this, Nat.zero_add]
  · unfold LM.prob
    rw [if_neg (by simp), removeNewest_two ⟨by decide, by decide⟩ hx, bos_count hn hc fun w hw => (hm w hw).1, if_pos rfl]

/-- One line of one word and bigrams: the mark of end has probability 2. -/
theorem C254_counterexample : ¬ C254_full := by
  intro h
  have := h 2 exCorpus exCorpus_ok "<eos>".toList 2 ⟨by decide, by decide⟩ (by
    rw [(C254_probabilities_partial 2 (by decide) exCorpus exCorpus_ok ⟨[['a']], by simp [exCorpus], by simp⟩ (by decide)).2.1]
    decide +kernel)
  revert this
  decide +kernel

/-! ### The file (C255) -/

/-- The dictionary: distinct keys, all joined words. -/
structure NgInv (ng : List (Str × Nat)) : Prop where
  dis : Distinct ng
  wrd : ∀ e ∈ ng, ∃ g : List Str, (∀ x ∈ g, Word x) ∧ e.1 = joinWords g

theorem inv_inc {ng : List (Str × Nat)} (h : NgInv ng) {g : List Str} (hg : ∀ x ∈ g, Word x) (c : Nat) : NgInv (incNg ng (joinWords g) c) := by
  have : ∀ v, NgInv (put ng (joinWords g) v) := by
    intro v
    refine ⟨AMap.distinct_put h.dis _ _, ?_⟩
    intro e he
    rcases mem_put he with rfl | he
    · exact ⟨g, hg, rfl⟩
    · exact h.wrd e he
  unfold incNg
  split <;> exact this _

theorem inv_train (n : Nat) (ws : List (List Str)) (hc : Corpus ws) : NgInv (LM.train n ws).ng := by
  induction ws using snoc_ind with
  | h0 => exact ⟨AMap.distinct_nil, by simp [LM.train]⟩
  | h1 ws w ih =>
    have hw : ∀ x ∈ w, Word x := hc w (by simp)
    have ih := ih fun x hx => hc x (by simp [hx])
    rw [train_snoc]
    show NgInv (List.foldl _ _ _)
    have h0 : NgInv (incNg (LM.train n ws).ng [] w.length) := inv_inc ih (g := []) (by simp) _
    generalize incNg (LM.train n ws).ng [] w.length = ng at h0
    generalize List.range' 1 (LM.train n ws).n = is
    induction is generalizing ng with
    | nil => exact h0
    | cons i is ih2 =>
      rw [List.foldl_cons]
      apply ih2
      generalize List.range (auxArr w).length = js
      induction js generalizing ng with
      | nil => exact h0
      | cons j js ih3 =>
        rw [List.foldl_cons]
        apply ih3
        unfold countAt
        split
        · exact inv_inc h0 (fun x hx => padS_words hw x (List.mem_of_mem_drop (List.mem_of_mem_take hx))) _
        · exact h0

/-- The number of words of a printed n-gram. -/
def ngLen (g : Str) : Nat := (fields ' ' g).length

theorem load_ng_line (m : LM) {g : List Str} (hg : ∀ x ∈ g, Word x) (hne : g ≠ []) (c : Nat) :
    m.loadLine (joinWords g ++ ' ' :: showNat c) =
      ⟨max m.n g.length, if g.length = 1 then incNg (incNg m.ng (joinWords g) c) [] c else incNg m.ng (joinWords g) c⟩ := by
  have hf : fields ' ' (joinWords g ++ ' ' :: showNat c) = g ++ [showNat c] := by
    have e : joinWords g ++ ' ' :: showNat c = joinWords (g ++ [showNat c]) := by
      rw [join_append g [showNat c] hne (by simp)]; rfl
    rw [e]
    apply fields_join
    intro w hw
    rcases List.mem_append.1 hw with hw | hw
    · exact hg w hw
    · rw [List.mem_singleton.1 hw]; exact AligFile.word_showNat c
  unfold LM.loadLine
  rw [hf, List.dropLast_concat, List.length_append, List.length_singleton]
  have h3 : (g ++ [showNat c]).getLastD [] = showNat c := by simp
  rw [h3, Vocab.atoiDigits_showNat]
  congr 1
  · rw [Nat.add_sub_cancel]
    by_cases h : m.n < g.length
    · rw [if_pos h]; omega
    · rw [if_neg h]; omega
  · by_cases h : g.length = 1
    · rw [if_pos (by omega), if_pos h]
    · rw [if_neg (by omega), if_neg h]

theorem foldl_map_load (l : List (Str × Nat)) (m : LM) (hl : ∀ e ∈ l, ∃ g : List Str, (∀ x ∈ g, Word x) ∧ g ≠ [] ∧ e.1 = joinWords g) (g' : Str) :
    ((l.map fun e => e.1 ++ ' ' :: showNat e.2).foldl LM.loadLine m).count g' = m.count g' +
      (l.map fun e => (if e.1 = g' then e.2 else 0) + if ngLen e.1 = 1 ∧ [] = g' then e.2 else 0).sum ∧
    ((l.map fun e => e.1 ++ ' ' :: showNat e.2).foldl LM.loadLine m).n = l.foldl (fun a e => max a (ngLen e.1)) m.n := by
  induction l generalizing m with
  | nil => exact ⟨rfl, rfl⟩
  | cons e l ih =>
    obtain ⟨g, hg, hne, he⟩ := hl e List.mem_cons_self
    have hlen : ngLen e.1 = g.length := by unfold ngLen; rw [he, fields_join hg]
    rw [List.map_cons, List.foldl_cons, he, load_ng_line m hg hne, List.foldl_cons, hlen]
    obtain ⟨i1, i2⟩ := ih ⟨max m.n g.length, if g.length = 1 then incNg (incNg m.ng (joinWords g) e.2) [] e.2 else incNg m.ng (joinWords g) e.2⟩
      fun x hx => hl x (List.mem_cons_of_mem _ hx)
    refine ⟨?_, i2⟩
    rw [i1, List.map_cons, List.sum_cons, hlen, he]
    have : (LM.count ⟨max m.n g.length, if g.length = 1 then incNg (incNg m.ng (joinWords g) e.2) [] e.2 else incNg m.ng (joinWords g) e.2⟩ g') =
        m.count g' + ((if joinWords g = g' then e.2 else 0) + if g.length = 1 ∧ [] = g' then e.2 else 0) := by
      unfold LM.count
      simp only
      by_cases h1 : g.length = 1
      · rw [if_pos h1, count_inc, count_inc]
        simp only [h1, true_and]
        omega
      · rw [if_neg h1, count_inc, if_neg (fun h : g.length = 1 ∧ [] = g' => h1 h.1)]
        omega
    rw [this]; omega

theorem sum_key {l : List (Str × Nat)} (hd : Distinct l) (g : Str) : (l.map fun e => if e.1 = g then e.2 else 0).sum = (lk l g).getD 0 := by
  induction l with
  | nil => rfl
  | cons a l ih =>
    obtain ⟨h1, h2⟩ := List.nodup_cons.1 hd
    rw [List.map_cons, List.sum_cons, lk]
    by_cases e : a.1 = g
    · rw [if_pos e, if_pos e]
      have : (l.map fun e => if e.1 = g then e.2 else 0).sum = 0 := by
        apply sum_const0
        intro x hx
        rw [if_neg]
        intro hc
        exact h1 (by rw [e, ← hc]; exact List.mem_map.2 ⟨x, hx, rfl⟩)
      rw [this]; rfl
    · rw [if_neg e, if_neg e, ih h2]; omega

theorem lk_filter {l : List (Str × Nat)} {g : Str} (hg : g ≠ []) : lk (l.filter fun e => e.1 ≠ []) g = lk l g := by
  induction l with
  | nil => rfl
  | cons a l ih =>
    by_cases h : a.1 = []
    · rw [List.filter_cons_of_neg (by simpa using h), ih, lk, if_neg (by rw [h]; exact fun e => hg e.symm)]
    · rw [List.filter_cons_of_pos (by simpa using h), lk, lk, ih]

/-- The full claim: a trained model that is printed and loaded has the same counts. -/
def C255_full : Prop := ∀ (n : Nat) (ws : List (List Str)), Corpus ws → ∀ g, (LM.load (LM.train n ws).print).count g = (LM.train n ws).count g

/-- A trained model that is printed and loaded has the same counts of the n-grams that are not empty; the count of the empty one becomes the
sum of the counts of the n-grams of one word, and the order the number of words of the longest n-gram. Missing: the empty n-gram
(`C255_counterexample`), as the marks of end are then counted as words. -/
theorem C255_print_load_partial (n : Nat) (ws : List (List Str)) (hc : Corpus ws) :
    (∀ g, g ≠ [] → (LM.load (LM.train n ws).print).count g = (LM.train n ws).count g) ∧
    (LM.load (LM.train n ws).print).count [] = (((LM.train n ws).ng.filter fun e => ngLen e.1 = 1).map Prod.snd).sum ∧
    (∀ e ∈ (LM.train n ws).ng, ngLen e.1 ≤ (LM.load (LM.train n ws).print).n) ∧
    ((LM.load (LM.train n ws).print).n = 0 ∨ ∃ e ∈ (LM.train n ws).ng, ngLen e.1 = (LM.load (LM.train n ws).print).n) := by
  have hi := inv_train n ws hc
  generalize (LM.train n ws) = m at hi
  have hl : ∀ e ∈ m.ng.filter fun e => e.1 ≠ [], ∃ g : List Str, (∀ x ∈ g, Word x) ∧ g ≠ [] ∧ e.1 = joinWords g := by
    intro e he
    obtain ⟨h1, h2⟩ := List.mem_filter.1 he
    obtain ⟨g, hg, h3⟩ := hi.wrd e h1
    refine ⟨g, hg, ?_, h3⟩
    rintro rfl
    rw [h3] at h2
    simp [joinWords] at h2
  have key := fun g => foldl_map_load (m.ng.filter fun e => e.1 ≠ []) ⟨0, []⟩ hl g
  have hd : Distinct (m.ng.filter fun e => e.1 ≠ []) := by
    unfold Distinct
    exact hi.dis.sublist (List.Sublist.map _ List.filter_sublist)
  have hn : (LM.load m.print).n = (m.ng.filter fun e => e.1 ≠ []).foldl (fun a e => max a (ngLen e.1)) 0 := (key []).2
  refine ⟨fun g hg => ?_, ?_, ?_, ?_⟩
  · have := (key g).1
    show (List.foldl LM.loadLine ⟨0, []⟩ m.print).count g = _
    unfold LM.print
    rw [this]
    have e : (fun e : Str × Nat => (if e.1 = g then e.2 else 0) + if ngLen e.1 = 1 ∧ [] = g then e.2 else 0) = fun e => if e.1 = g then e.2 else 0 := by
      funext e
      rw [if_neg (fun h : ngLen e.1 = 1 ∧ [] = g => hg h.2.symm)]; rfl
    rw [e, sum_key hd, lk_filter hg]
    show 0 + _ = _
    rw [Nat.zero_add]; rfl
  · have := (key []).1
    show (List.foldl LM.loadLine ⟨0, []⟩ m.print).count [] = _
    unfold LM.print
    rw [this]
    show 0 + _ = _
    rw [Nat.zero_add]
    clear this key hn hd hl hi
    induction m.ng with
    | nil => rfl
    | cons a l ih =>
      by_cases h : a.1 = []
      · have h2 : ¬ ngLen a.1 = 1 := by rw [h]; decide
        rw [List.filter_cons_of_neg (by simpa using h), List.filter_cons_of_neg (by simpa using h2), ih]
      · rw [List.filter_cons_of_pos (by simpa using h), List.map_cons, List.sum_cons, ih, if_neg h]
        by_cases h2 : ngLen a.1 = 1
        · rw [List.filter_cons_of_pos (by simpa using h2), List.map_cons, List.sum_cons, if_pos ⟨h2, rfl⟩]; omega
        · rw [List.filter_cons_of_neg (by simpa using h2), if_neg (fun h => h2 h.1)]; omega
  · rw [hn]
    have : ∀ (l : List (Str × Nat)) (a : Nat), a ≤ l.foldl (fun a e => max a (ngLen e.1)) a ∧
        ∀ e ∈ l, ngLen e.1 ≤ l.foldl (fun a e => max a (ngLen e.1)) a := by
      intro l
      induction l with
      | nil => intro a; exact ⟨Nat.le_refl a, by simp⟩
      | cons x l ih =>
        intro a
        obtain ⟨i1, i2⟩ := ih (max a (ngLen x.1))
        rw [List.foldl_cons]
        refine ⟨by omega, fun e he => ?_⟩
        rcases List.mem_cons.1 he with rfl | he
        · omega
        · exact i2 e he
    intro e he
    by_cases h : e.1 = []
    · rw [h]; exact Nat.zero_le _
    · exact (this _ 0).2 e (List.mem_filter.2 ⟨he, by simpa using h⟩)
  · rw [hn]
    have : ∀ (l : List (Str × Nat)) (a : Nat), l.foldl (fun a e => max a (ngLen e.1)) a = a ∨
        ∃ e ∈ l, ngLen e.1 = l.foldl (fun a e => max a (ngLen e.1)) a := by
      intro l
      induction l with
      | nil => intro a; exact Or.inl rfl
      | cons x l ih =>
        intro a
        rw [List.foldl_cons]
        rcases ih (max a (ngLen x.1)) with h | ⟨e, he, h⟩
        · rw [h]
          by_cases hx : ngLen x.1 ≤ a
          · exact Or.inl (by omega)
          · exact Or.inr ⟨x, List.mem_cons_self, by omega⟩
        · exact Or.inr ⟨e, List.mem_cons_of_mem _ he, h⟩
    rcases this (m.ng.filter fun e => e.1 ≠ []) 0 with h | ⟨e, he, h⟩
    · exact Or.inl h
    · exact Or.inr ⟨e, (List.mem_filter.1 he).1, h⟩

/-- One line of one word and bigrams: the number of words goes from 1 to 3. -/
theorem C255_counterexample : ¬ C255_full := by
  intro h
  have h1 := h 2 exCorpus exCorpus_ok []
  rw [(C255_print_load_partial 2 exCorpus exCorpus_ok).2.1] at h1
  revert h1
  decide +kernel

end Thot.Preproc
