import Verif.Vocab.Model
import Verif.Awk.Props
/-!
C19: vocabulary encode/decode.  C20: growth after loading.  C43: print/load round trip.
-/
namespace Thot.Vocab
open AMap

/-- Consistent vocabulary: both maps are inverse to each other and the indices are exactly `0 … size-1`. -/
structure Consistent (v : Voc) : Prop where
  d1 : Distinct v.s2i
  d2 : Distinct v.i2s
  corr : ∀ w i, lk v.s2i w = some i ↔ lk v.i2s i = some w
  dense : ∀ i, (∃ w, lk v.i2s i = some w) ↔ i < size v

theorem lk_add_s2i {v : Voc} {s : Str} (hs : lk v.s2i s = none) (w : Str) :
    lk (addSymbol v s).2.s2i w = if w = s then some v.s2i.length else lk v.s2i w := by
  simp only [addSymbol, hs, setBoth, lk_put]

theorem add_some {v : Voc} {s : Str} {i : Nat} (hs : lk v.s2i s = some i) : addSymbol v s = (i, v) := by
  simp [addSymbol, hs]

/-- The reserved words are these strings. -/
example : NULL_WORD_STR = "NULL".toList ∧ UNK_WORD_STR = "UNKNOWN_WORD".toList ∧
    UNUSED_WORD_STR = "<UNUSED_WORD>".toList := by decide

theorem reserved_ne : NULL_WORD_STR ≠ UNK_WORD_STR ∧ NULL_WORD_STR ≠ UNUSED_WORD_STR ∧
    UNK_WORD_STR ≠ UNUSED_WORD_STR := by decide

theorem clear_s2i : clear.s2i = [(NULL_WORD_STR, 0), (UNK_WORD_STR, 1), (UNUSED_WORD_STR, 2)] := by decide
theorem clear_i2s : clear.i2s = [(0, NULL_WORD_STR), (1, UNK_WORD_STR), (2, UNUSED_WORD_STR)] := by decide

theorem lk_clear (w : Str) : lk clear.s2i w = if NULL_WORD_STR = w then some 0 else
    if UNK_WORD_STR = w then some 1 else if UNUSED_WORD_STR = w then some 2 else none := by
  rw [clear_s2i]; rfl

theorem lk_clear' (i : Nat) : lk clear.i2s i = if 0 = i then some NULL_WORD_STR else
    if 1 = i then some UNK_WORD_STR else if 2 = i then some UNUSED_WORD_STR else none := by
  rw [clear_i2s]; rfl

theorem consistent_clear : Consistent clear := by
  obtain ⟨n1, n2, n3⟩ := reserved_ne
  refine ⟨?_, ?_, ?_, ?_⟩
  · rw [clear_s2i]; simp [Distinct, n1, n2, n3]
  · rw [clear_i2s]; simp [Distinct]
  · intro w i
    rw [lk_clear, lk_clear']
    grind
  · intro i
    have : size clear = 3 := by unfold size; rw [clear_s2i]; rfl
    rw [this, lk_clear']
    constructor
    · rintro ⟨w, h⟩; grind
    · intro h
      have : i = 0 ∨ i = 1 ∨ i = 2 := by omega
      rcases this with rfl | rfl | rfl <;> simp

theorem consistent_add {v : Voc} (h : Consistent v) (s : Str) : Consistent (addSymbol v s).2 := by
  cases hs : lk v.s2i s with
  | some i => rw [add_some hs]; exact h
  | none =>
    have hsz : size (addSymbol v s).2 = size v + 1 := by
      simp [addSymbol, hs, setBoth, size, length_put]
    have hnew : lk v.i2s v.s2i.length = none := by
      cases hg : lk v.i2s v.s2i.length with
      | none => rfl
      | some w => have := (h.dense _).1 ⟨w, hg⟩; unfold size at this; omega
    have e2 : ∀ i, lk (addSymbol v s).2.i2s i = if i = v.s2i.length then some s else lk v.i2s i := by
      intro i; simp only [addSymbol, hs, setBoth, lk_put]
    refine ⟨?_, ?_, ?_, ?_⟩
    · simp only [addSymbol, hs, setBoth]; exact distinct_put h.d1 _ _
    · simp only [addSymbol, hs, setBoth]; exact distinct_put h.d2 _ _
    · intro w i
      rw [lk_add_s2i hs, e2]
      have := h.corr w i
      by_cases hw : w = s
      · subst hw
        by_cases hi : i = v.s2i.length
        · subst hi; simp
        · rw [if_pos rfl, if_neg hi, ← this, hs]
          constructor
          · intro h; injection h with h; exact absurd h.symm hi
          · intro h; cases h
      · rw [if_neg hw, this]
        by_cases hi : i = v.s2i.length
        · subst hi
          rw [if_pos rfl, hnew]
          constructor
          · intro h; cases h
          · intro h; injection h with h; exact absurd h.symm hw
        · rw [if_neg hi]
    · intro i
      rw [hsz, e2]
      by_cases hi : i = v.s2i.length
      · subst hi; simp [size]
      · rw [if_neg hi, h.dense]; unfold size; omega

theorem stable_add {v : Voc} {w : Str} {i : Nat} (h : lk v.s2i w = some i) (s : Str) :
    lk (addSymbol v s).2.s2i w = some i := by
  cases hs : lk v.s2i s with
  | some j => rw [add_some hs]; exact h
  | none =>
    rw [lk_add_s2i hs]
    split
    · rename_i hw; subst hw; rw [h] at hs; cases hs
    · exact h

theorem consistent_addAll {v : Voc} (h : Consistent v) (ws : List Str) : Consistent (addAll v ws) := by
  induction ws generalizing v with
  | nil => exact h
  | cons w ws ih => exact ih (consistent_add h w)

theorem stable_addAll {v : Voc} {w : Str} {i : Nat} (h : lk v.s2i w = some i) (ws : List Str) :
    lk (addAll v ws).s2i w = some i := by
  induction ws generalizing v with
  | nil => exact h
  | cons s ws ih => exact ih (stable_add h s)

theorem lk_add_self (v : Voc) (s : Str) : lk (addSymbol v s).2.s2i s = some (addSymbol v s).1 := by
  cases hs : lk v.s2i s with
  | some j => rw [add_some hs]; exact hs
  | none => rw [lk_add_s2i hs]; simp [addSymbol, hs]

/-- The words present after additions. -/
theorem exists_addAll (v : Voc) (ws : List Str) (w : Str) :
    existSymbol (addAll v ws) w = true ↔ existSymbol v w = true ∨ w ∈ ws := by
  induction ws generalizing v with
  | nil => simp [addAll]
  | cons s ws ih =>
    have : addAll v (s :: ws) = addAll (addSymbol v s).2 ws := rfl
    rw [this, ih, List.mem_cons]
    have : existSymbol (addSymbol v s).2 w = true ↔ existSymbol v w = true ∨ w = s := by
      unfold existSymbol
      cases hs : lk v.s2i s with
      | some j =>
        rw [add_some hs]
        constructor
        · exact Or.inl
        · rintro (h | rfl)
          · exact h
          · rw [hs]; rfl
      | none =>
        rw [lk_add_s2i hs]
        split <;> rename_i hw
        · simp [hw]
        · simp [hw]
    rw [this, or_assoc]

/-- **C19.** In the vocabulary obtained by any additions to a fresh one: -/
theorem C19_vocab (ws : List Str) :
    let v := addAll clear ws
    -- every present word decodes from its index
    (∀ w, existSymbol v w = true → wordIndexToString v (stringToWordIndex v w) = w) ∧
    -- the present words are the added ones and the reserved ones
    (∀ w, existSymbol v w = true ↔
      w ∈ ws ∨ w = NULL_WORD_STR ∨ w = UNK_WORD_STR ∨ w = UNUSED_WORD_STR) ∧
    -- distinct words have distinct indices
    (∀ w w', existSymbol v w = true → existSymbol v w' = true →
      stringToWordIndex v w = stringToWordIndex v w' → w = w') ∧
    -- the indices are 0 … size-1
    (∀ i, i < size v ↔ ∃ w, existSymbol v w = true ∧ stringToWordIndex v w = i) ∧
    -- reserved words and unknown words
    stringToWordIndex v NULL_WORD_STR = 0 ∧ stringToWordIndex v UNK_WORD_STR = 1 ∧
    stringToWordIndex v UNUSED_WORD_STR = 2 ∧
    (∀ w, existSymbol v w = false → stringToWordIndex v w = 1) ∧
    -- indices out of range
    (∀ i, size v ≤ i → wordIndexToString v i = UNK_WORD_STR) ∧
    -- stability under later additions
    (∀ us w, existSymbol v w = true →
      stringToWordIndex (addAll v us) w = stringToWordIndex v w ∧ existSymbol (addAll v us) w = true) := by
  intro v
  have hc : Consistent v := consistent_addAll consistent_clear ws
  have hex : ∀ w, existSymbol v w = true → ∃ i, lk v.s2i w = some i := by
    intro w h; unfold existSymbol at h; exact Option.isSome_iff_exists.1 h
  refine ⟨?_, ?_, ?_, ?_, ?_, ?_, ?_, ?_, ?_, ?_⟩
  · intro w h
    obtain ⟨i, hi⟩ := hex w h
    unfold wordIndexToString stringToWordIndex
    rw [hi, Option.getD_some, (hc.corr w i).1 hi, Option.getD_some]
  · intro w
    rw [exists_addAll]
    have : existSymbol clear w = true ↔ (w = NULL_WORD_STR ∨ w = UNK_WORD_STR ∨ w = UNUSED_WORD_STR) := by
      unfold existSymbol
      rw [lk_clear]
      grind
    rw [this, or_comm]
  · intro w w' h h' he
    obtain ⟨i, hi⟩ := hex w h
    obtain ⟨j, hj⟩ := hex w' h'
    unfold stringToWordIndex at he
    rw [hi, hj] at he
    simp only [Option.getD_some] at he
    subst he
    have h1 := (hc.corr w i).1 hi
    rw [(hc.corr w' i).1 hj] at h1
    injection h1 with h1; exact h1.symm
  · intro i
    rw [← hc.dense i]
    constructor
    · rintro ⟨w, hw⟩
      have := (hc.corr w i).2 hw
      exact ⟨w, by unfold existSymbol; rw [this]; rfl, by unfold stringToWordIndex; rw [this]; rfl⟩
    · rintro ⟨w, h, hi⟩
      obtain ⟨j, hj⟩ := hex w h
      unfold stringToWordIndex at hi
      rw [hj] at hi; simp only [Option.getD_some] at hi; subst hi
      exact ⟨w, (hc.corr w j).1 hj⟩
  · unfold stringToWordIndex
    rw [stable_addAll (i := 0) (by rw [lk_clear]; have := reserved_ne; grind)]; rfl
  · unfold stringToWordIndex
    rw [stable_addAll (i := 1) (by rw [lk_clear]; have := reserved_ne; grind)]; rfl
  · unfold stringToWordIndex
    rw [stable_addAll (i := 2) (by rw [lk_clear]; have := reserved_ne; grind)]; rfl
  · intro w h
    unfold existSymbol at h
    unfold stringToWordIndex
    rw [Option.isSome_eq_false_iff, Option.isNone_iff_eq_none] at h
    rw [h]; rfl
  · intro i hi
    unfold wordIndexToString
    cases hg : lk v.i2s i with
    | none => rfl
    | some w => have := (hc.dense i).1 ⟨w, hg⟩; omega
  · intro us w h
    obtain ⟨i, hi⟩ := hex w h
    have := stable_addAll hi us
    unfold stringToWordIndex existSymbol
    rw [this, hi]; exact ⟨rfl, rfl⟩

theorem strVec_eq (v : Voc) (ss : List Str) : (strVectorToIndexVector v ss).2 = addAll v ss := by
  induction ss generalizing v with
  | nil => rfl
  | cons s ss ih => simp only [strVectorToIndexVector]; rw [ih]; rfl

/-- **C19.** Encoding a sentence with `strVectorToSrcIndexVector` and decoding it word by word gives the sentence,
in a vocabulary reached by any additions. -/
theorem C19_encode_decode (ws ss : List Str) :
    let r := strVectorToIndexVector (addAll clear ws) ss
    r.1.map (wordIndexToString r.2) = ss := by
  intro r
  have key : ∀ (v : Voc) (us : List Str), Consistent v →
      (strVectorToIndexVector v ss).1.map (wordIndexToString (addAll (strVectorToIndexVector v ss).2 us)) = ss := by
    intro v us hv
    induction ss generalizing v with
    | nil => rfl
    | cons s ss ih =>
      simp only [strVectorToIndexVector, List.map_cons]
      have hc := consistent_add hv s
      rw [ih _ hc]
      congr 1
      have h := lk_add_self v s
      rw [strVec_eq]
      have h2 := stable_addAll (stable_addAll h ss) us
      have hc2 := consistent_addAll (consistent_addAll hc ss) us
      unfold wordIndexToString
      rw [(hc2.corr _ _).1 h2]; rfl
  exact key (addAll clear ws) [] (consistent_addAll consistent_clear ws)

example : (strVectorToIndexVector clear ["the".toList, "cat".toList, "the".toList, "NULL".toList]).1 = [3, 4, 3, 0] := by
  decide +kernel

/-! ## C20 -/

/-- Full statement of C20. -/
def C20_full : Prop := ∀ (file : Str) (v : Voc) (ws : List Str), load file = .ok v →
  ∀ w w', existSymbol (addAll v ws) w = true → existSymbol (addAll v ws) w' = true →
    stringToWordIndex (addAll v ws) w = stringToWordIndex (addAll v ws) w' → w = w'

/-- **C20 is false of the code**: load a file with the single entry `5 a`, then add `b` and `c`: both `a` and `c`
have index 5. -/
theorem C20_counterexample : ¬ C20_full := by
  intro h
  have hl : ∃ v, load "5 a\n".toList = .ok v ∧ (existSymbol (addAll v [['b'], ['c']]) ['a'] = true ∧
      existSymbol (addAll v [['b'], ['c']]) ['c'] = true ∧
      stringToWordIndex (addAll v [['b'], ['c']]) ['a'] = stringToWordIndex (addAll v [['b'], ['c']]) ['c']) := by
    refine ⟨setBoth clear ['a'] 5, ?_, ?_⟩
    · have e : Awk.readAll ("5 a\n".toList.length + 1) "5 a\n".toList = [['5', ' ', 'a']] := by decide +kernel
      have e1 : Awk.getNF ' ' ['5', ' ', 'a'] = 2 := by decide +kernel
      have e2 : atoi (Awk.dollar ' ' ['5', ' ', 'a'] 1) = some 5 := by decide +kernel
      have e3 : Awk.dollar ' ' ['5', ' ', 'a'] 2 = ['a'] := by decide +kernel
      unfold load
      rw [e, loadLines, e1, e2, e3]
      rfl
    · decide +kernel
  obtain ⟨v, hv, h1, h2, h3⟩ := hl
  have := h _ v [['b'], ['c']] hv _ _ h1 h2 h3
  exact absurd this (by decide)

/-- **C20 (partial).** If the loaded vocabulary is consistent – words and indices in one-to-one correspondence,
indices exactly `0 … size-1` – later additions keep distinct words on distinct indices, and every present word
decodes from its index. Missing: files with gaps or repeated indices (see the counterexample). -/
theorem C20_growth_partial (file : Str) (v : Voc) (ws : List Str) (_ : load file = .ok v) (hc : Consistent v) :
    (∀ w w', existSymbol (addAll v ws) w = true → existSymbol (addAll v ws) w' = true →
      stringToWordIndex (addAll v ws) w = stringToWordIndex (addAll v ws) w' → w = w') ∧
    (∀ w, existSymbol (addAll v ws) w = true →
      wordIndexToString (addAll v ws) (stringToWordIndex (addAll v ws) w) = w) ∧
    (∀ w, existSymbol v w = true → stringToWordIndex (addAll v ws) w = stringToWordIndex v w) := by
  have hc' := consistent_addAll hc ws
  have hex : ∀ v w, existSymbol v w = true → ∃ i, lk v.s2i w = some i := by
    intro v w h; unfold existSymbol at h; exact Option.isSome_iff_exists.1 h
  have hdec : ∀ w, existSymbol (addAll v ws) w = true →
      wordIndexToString (addAll v ws) (stringToWordIndex (addAll v ws) w) = w := by
    intro w h
    obtain ⟨i, hi⟩ := hex _ w h
    unfold wordIndexToString stringToWordIndex
    rw [hi, Option.getD_some, (hc'.corr w i).1 hi, Option.getD_some]
  refine ⟨?_, hdec, ?_⟩
  · intro w w' h h' he
    rw [← hdec w h, he, hdec w' h']
  · intro w h
    obtain ⟨i, hi⟩ := hex _ w h
    unfold stringToWordIndex
    rw [stable_addAll hi, hi]

/-! ## C43 – print and load -/

theorem digit_dig (n : Nat) : isDig (digit n) = true ∧ (digit n).toNat - 48 = n % 10 ∧ digit n ≠ ' ' ∧
    digit n ≠ '\n' ∧ digit n ≠ '\x00' ∧ isSpace (digit n) = false ∧ digit n ≠ '-' ∧ digit n ≠ '+' := by
  unfold digit
  have : n % 10 < 10 := Nat.mod_lt _ (by omega)
  generalize n % 10 = m at this
  have : m = 0 ∨ m = 1 ∨ m = 2 ∨ m = 3 ∨ m = 4 ∨ m = 5 ∨ m = 6 ∨ m = 7 ∨ m = 8 ∨ m = 9 := by omega
  rcases this with rfl|rfl|rfl|rfl|rfl|rfl|rfl|rfl|rfl|rfl <;> decide

theorem showNat_digits (n : Nat) : ∀ c ∈ showNat n, ∃ m, c = digit m := by
  induction n using Nat.strongRecOn with
  | ind n ih =>
    intro c hc
    rw [showNat] at hc
    split at hc
    · exact ⟨n, by simpa using hc⟩
    · rename_i h
      rcases List.mem_append.1 hc with h1 | h1
      · exact ih (n / 10) (by omega) c h1
      · exact ⟨n, by simpa using h1⟩

theorem showNat_ne_nil (n : Nat) : showNat n ≠ [] := by rw [showNat]; split <;> simp

theorem atoiDigits_append (a b : Str) (acc : Nat) (h : ∀ c ∈ a, isDig c = true) :
    atoiDigits acc (a ++ b) = atoiDigits (atoiDigits acc a) b := by
  induction a generalizing acc with
  | nil => rfl
  | cons c a ih =>
    rw [List.cons_append, atoiDigits, if_pos (h c List.mem_cons_self), ih _ fun x hx => h x (List.mem_cons_of_mem _ hx),
      atoiDigits, if_pos (h c List.mem_cons_self)]

theorem atoiDigits_showNat (n : Nat) : atoiDigits 0 (showNat n) = n := by
  induction n using Nat.strongRecOn with
  | ind n ih =>
    rw [showNat]
    split
    · rename_i h
      rw [atoiDigits, if_pos (digit_dig n).1, (digit_dig n).2.1, atoiDigits]; omega
    · rename_i h
      rw [atoiDigits_append _ _ _ (fun c hc => by
        obtain ⟨m, rfl⟩ := showNat_digits _ c hc; exact (digit_dig m).1), ih (n / 10) (by omega)]
      rw [atoiDigits, if_pos (digit_dig n).1, (digit_dig n).2.1, atoiDigits]; omega

theorem atoi_showNat (n : Nat) (h : n < 2^31) : atoi (showNat n) = some (n : Int) := by
  have hd : (showNat n).dropWhile isSpace = showNat n := by
    cases hs : showNat n with
    | nil => rfl
    | cons c r =>
      obtain ⟨m, rfl⟩ := showNat_digits n c (by rw [hs]; exact List.mem_cons_self)
      rw [List.dropWhile_cons_of_neg]; simp [(digit_dig m).2.2.2.2.2.1]
  unfold atoi
  simp only [hd]
  have : atoiSigned (showNat n) = (n : Int) := by
    unfold atoiSigned
    cases hs : showNat n with
    | nil => exact absurd hs (showNat_ne_nil n)
    | cons c r =>
      obtain ⟨m, rfl⟩ := showNat_digits n c (by rw [hs]; exact List.mem_cons_self)
      have h1 := (digit_dig m).2.2.2.2.2.2.1
      have h2 := (digit_dig m).2.2.2.2.2.2.2
      split
      · rename_i heq; injection heq with heq _; exact absurd heq h1
      · rename_i heq; injection heq with heq _; exact absurd heq h2
      · rw [← hs, atoiDigits_showNat]
  rw [this, if_pos (by omega)]

/-- A word that survives the file format: non-empty, without blank, newline or NUL. -/
def FileWord (w : Str) : Prop := w ≠ [] ∧ ∀ c ∈ w, c ≠ ' ' ∧ c ≠ '\n' ∧ c ≠ '\x00'

theorem fileWord_reserved : FileWord NULL_WORD_STR ∧ FileWord UNK_WORD_STR ∧ FileWord UNUSED_WORD_STR := by
  refine ⟨⟨by decide, by decide⟩, ⟨by decide, by decide⟩, ⟨by decide, by decide⟩⟩

theorem loadLines_entries (v : Voc) (es : List (Str × Nat)) (h : ∀ e ∈ es, FileWord e.1 ∧ e.2 < 2^31) :
    loadLines v (es.map (fun e => showNat e.2 ++ ' ' :: e.1))
      = .ok (es.foldl (fun v e => setBoth v e.1 e.2) v) := by
  induction es generalizing v with
  | nil => rfl
  | cons e es ih =>
    obtain ⟨⟨hw, hw'⟩, hi⟩ := h e List.mem_cons_self
    have hf : Awk.fields ' ' (showNat e.2 ++ ' ' :: e.1) = [showNat e.2, e.1] :=
      Awk.fields_two ' ' _ _ (showNat_ne_nil _) hw
        (fun c hc => by obtain ⟨m, rfl⟩ := showNat_digits _ c hc; exact (digit_dig m).2.2.1)
        (fun c hc => (hw' c hc).1)
    rw [List.map_cons, loadLines, Awk.C41_NF, hf]
    have h1 := (Awk.C41_dollar ' ' (showNat e.2 ++ ' ' :: e.1)).2 0
    have h2 := (Awk.C41_dollar ' ' (showNat e.2 ++ ' ' :: e.1)).2 1
    rw [hf] at h1 h2
    simp only [Nat.zero_add, Nat.reduceAdd, List.getElem?_cons_zero, List.getElem?_cons_succ, Option.getD_some] at h1 h2
    simp only [List.length_cons, List.length_nil]
    rw [if_pos (by omega), if_pos (Or.inl trivial), h1, h2, atoi_showNat _ hi]
    simp only
    have : toWordIndex (e.2 : Int) = e.2 := by unfold toWordIndex; omega
    rw [this, ih _ fun x hx => h x (List.mem_cons_of_mem _ hx)]; rfl

/-- What a line of a vocabulary file says: nothing (fewer than two columns) or `word` has index `i` (two or three
columns: index, word and an optional count). -/
def LineIs (l : Str) : Option (Str × Nat) → Prop
  | none => (Awk.fields ' ' l).length ≤ 1
  | some (w, i) => i < 2^31 ∧ ∃ rest : List Str, rest.length ≤ 1 ∧ Awk.fields ' ' l = showNat i :: w :: rest

theorem loadLines_lines (v : Voc) (les : List (Str × Option (Str × Nat))) (h : ∀ le ∈ les, LineIs le.1 le.2)
    (tail : List Str) :
    loadLines v (les.map Prod.fst ++ tail)
      = loadLines ((les.filterMap Prod.snd).foldl (fun v e => setBoth v e.1 e.2) v) tail := by
  induction les generalizing v with
  | nil => rfl
  | cons e es ih =>
    have he := h e List.mem_cons_self
    have ih' := fun v => ih v (fun x hx => h x (List.mem_cons_of_mem _ hx))
    rw [List.map_cons, List.cons_append, loadLines, Awk.C41_NF]
    obtain ⟨l, o⟩ := e
    cases o with
    | none =>
      have he : (Awk.fields ' ' l).length ≤ 1 := he
      rw [if_neg (by simp only; omega), ih']; rfl
    | some wi =>
      obtain ⟨w, i⟩ := wi
      obtain ⟨hi, rest, hr, hf⟩ := he
      have h1 := (Awk.C41_dollar ' ' l).2 0
      have h2 := (Awk.C41_dollar ' ' l).2 1
      simp only at hf
      rw [hf] at h1 h2
      simp only [Nat.zero_add, Nat.reduceAdd, List.getElem?_cons_zero, List.getElem?_cons_succ, Option.getD_some] at h1 h2
      simp only [hf, List.length_cons]
      rw [if_pos (by omega), if_pos (by omega), h1, h2, atoi_showNat _ hi]
      simp only
      have : toWordIndex (i : Int) = i := by unfold toWordIndex; omega
      rw [this, ih']; rfl

/-- **C20, loading.** A vocabulary file whose lines have fewer than two columns (ignored), or an index, a word and an
optional third column, is loaded; the index of a word is that of its last line (the reserved words keep theirs if
there is none, other words are unknown), and the word of an index that of its last line. A line with more columns is
an error. -/
theorem C20_load (les : List (Str × Option (Str × Nat))) (h : ∀ le ∈ les, LineIs le.1 le.2)
    (hc : ∀ le ∈ les, ∀ c ∈ le.1, c ≠ '\n' ∧ c ≠ '\x00') :
    (∃ v, load (les.flatMap (fun le => le.1 ++ ['\n'])) = .ok v ∧
      (∀ w, stringToWordIndex v w = match ((les.filterMap Prod.snd).reverse.find? (fun e => e.1 = w)) with
        | some e => e.2
        | none => stringToWordIndex clear w) ∧
      (∀ w, existSymbol v w = ((les.filterMap Prod.snd).any (fun e => e.1 = w) || existSymbol clear w)) ∧
      (∀ i, wordIndexToString v i = match ((les.filterMap Prod.snd).reverse.find? (fun e => e.2 = i)) with
        | some e => e.1
        | none => wordIndexToString clear i)) ∧
    (∀ l : Str, (∀ c ∈ l, c ≠ '\n' ∧ c ≠ '\x00') → (Awk.fields ' ' l).length > 3 →
      ∃ v, load (les.flatMap (fun le => le.1 ++ ['\n']) ++ (l ++ ['\n'])) = .error v) := by
  have hlen : ∀ ls : List Str, ls.length ≤ (ls.flatMap (fun l => l ++ ['\n'])).length := by
    intro ls
    induction ls with
    | nil => simp
    | cons l ls ih => simp only [List.flatMap_cons, List.length_append, List.length_cons, List.length_nil]; omega
  have hload : ∀ ls : List Str, (∀ l ∈ ls, ∀ c ∈ l, c ≠ '\n' ∧ c ≠ '\x00') →
      load (ls.flatMap (fun l => l ++ ['\n'])) = loadLines clear ls := by
    intro ls hl
    unfold load
    rw [Awk.C42_lines_partial _ hl]
    exact Nat.succ_le_succ (hlen ls)
  have e1 : les.flatMap (fun le => le.1 ++ ['\n']) = (les.map Prod.fst).flatMap (fun l => l ++ ['\n']) := by
    rw [List.flatMap_map]
  have hc' : ∀ l ∈ les.map Prod.fst, ∀ c ∈ l, c ≠ '\n' ∧ c ≠ '\x00' := by
    intro l hl; obtain ⟨e, he, rfl⟩ := List.mem_map.1 hl; exact hc e he
  refine ⟨⟨(les.filterMap Prod.snd).foldl (fun v e => setBoth v e.1 e.2) clear, ?_, ?_⟩, ?_⟩
  · rw [e1, hload _ hc']
    have := loadLines_lines clear les h []
    rw [List.append_nil] at this
    rw [this]; rfl
  · generalize les.filterMap Prod.snd = es
    have key : ∀ (es : List (Str × Nat)) (v : Voc),
        (∀ w, lk (es.foldl (fun v e => setBoth v e.1 e.2) v).s2i w =
          match es.reverse.find? (fun e => e.1 = w) with | some e => some e.2 | none => lk v.s2i w) ∧
        (∀ i, lk (es.foldl (fun v e => setBoth v e.1 e.2) v).i2s i =
          match es.reverse.find? (fun e => e.2 = i) with | some e => some e.1 | none => lk v.i2s i) := by
      intro es
      induction es with
      | nil => intro v; exact ⟨fun w => rfl, fun i => rfl⟩
      | cons e es ih =>
        intro v
        obtain ⟨i1, i2⟩ := ih (setBoth v e.1 e.2)
        constructor
        · intro w
          rw [List.foldl_cons, i1, List.reverse_cons, List.find?_append]
          cases hf : es.reverse.find? (fun e => e.1 = w) with
          | some e' => rfl
          | none =>
            simp only [Option.none_or, setBoth, lk_put, List.find?_cons, List.find?_nil]
            by_cases hw : e.1 = w
            · simp [hw]
            · have : ¬ w = e.1 := fun h => hw h.symm
              simp [hw, this]
        · intro i
          rw [List.foldl_cons, i2, List.reverse_cons, List.find?_append]
          cases hf : es.reverse.find? (fun e => e.2 = i) with
          | some e' => rfl
          | none =>
            simp only [Option.none_or, setBoth, lk_put, List.find?_cons, List.find?_nil]
            by_cases hw : e.2 = i
            · simp [hw]
            · have : ¬ i = e.2 := fun h => hw h.symm
              simp [hw, this]
    obtain ⟨k1, k2⟩ := key es clear
    refine ⟨fun w => ?_, fun w => ?_, fun i => ?_⟩
    · unfold stringToWordIndex; rw [k1]
      cases es.reverse.find? (fun e => e.1 = w) <;> rfl
    · unfold existSymbol; rw [k1]
      cases hf : es.reverse.find? (fun e => e.1 = w) with
      | some e =>
        have h1 := List.mem_of_find?_eq_some hf
        have h2 := List.find?_some hf
        have : es.any (fun e => e.1 = w) = true := List.any_eq_true.2 ⟨e, List.mem_reverse.1 h1, h2⟩
        rw [this]; rfl
      | none =>
        have : es.any (fun e => e.1 = w) = false := by
          rw [List.any_eq_false]
          intro x hx
          exact (List.find?_eq_none.1 hf) x (List.mem_reverse.2 hx)
        rw [this]; rfl
    · unfold wordIndexToString; rw [k2]
      cases es.reverse.find? (fun e => e.2 = i) <;> rfl
  · intro l hl hf
    have : les.flatMap (fun le => le.1 ++ ['\n']) ++ (l ++ ['\n']) =
        (les.map Prod.fst ++ [l]).flatMap (fun l => l ++ ['\n']) := by
      rw [List.flatMap_append, e1]; simp
    rw [this, hload, loadLines_lines clear les h [l], loadLines, Awk.C41_NF, if_pos (by omega), if_neg (by omega)]
    · exact ⟨_, rfl⟩
    · intro x hx
      rcases List.mem_append.1 hx with hx | hx
      · exact hc' x hx
      · rw [List.mem_singleton.1 hx]; exact hl

example : LineIs "7 house 12".toList (some ("house".toList, 7)) ∧ LineIs "x".toList none := by
  refine ⟨⟨by decide, ["12".toList], by decide, by decide +kernel⟩, ?_⟩
  show (Awk.fields ' ' "x".toList).length ≤ 1
  decide +kernel

theorem load_print (es : List (Str × Nat)) (h : ∀ e ∈ es, FileWord e.1 ∧ e.2 < 2^31) :
    load (printVocab es) = .ok (es.foldl (fun v e => setBoth v e.1 e.2) clear) := by
  unfold load printVocab
  have hl : ∀ l ∈ es.map (fun e : Str × Nat => showNat e.2 ++ ' ' :: e.1), ∀ c ∈ l, c ≠ '\n' ∧ c ≠ '\x00' := by
    intro l hl c hc
    obtain ⟨e, he, rfl⟩ := List.mem_map.1 hl
    rcases List.mem_append.1 hc with h1 | h1
    · obtain ⟨m, rfl⟩ := showNat_digits _ c h1; exact ⟨(digit_dig m).2.2.2.1, (digit_dig m).2.2.2.2.1⟩
    · rcases List.mem_cons.1 h1 with rfl | h1
      · decide
      · exact ((h e he).1.2 c h1).2
  have e1 : es.flatMap (fun e => (showNat e.2 ++ ' ' :: e.1) ++ ['\n'])
      = (es.map (fun e : Str × Nat => showNat e.2 ++ ' ' :: e.1)).flatMap (fun l => l ++ ['\n']) := by
    rw [List.flatMap_map]
  rw [e1, Awk.C42_lines_partial _ hl, loadLines_entries _ _ h]
  have : ∀ ls : List Str, ls.length ≤ (ls.flatMap (fun l => l ++ ['\n'])).length := by
    intro ls
    induction ls with
    | nil => simp
    | cons l ls ih => simp only [List.flatMap_cons, List.length_append, List.length_cons, List.length_nil]; omega
  have := this (es.map (fun e : Str × Nat => showNat e.2 ++ ' ' :: e.1))
  omega

theorem lk_foldl_setBoth (es : List (Str × Nat)) (v : Voc) (h1 : (es.map Prod.fst).Nodup)
    (h2 : (es.map Prod.snd).Nodup) :
    (∀ w, lk (es.foldl (fun v e => setBoth v e.1 e.2) v).s2i w = (lk es w).or (lk v.s2i w)) ∧
    (∀ i w, (w, i) ∈ es → lk (es.foldl (fun v e => setBoth v e.1 e.2) v).i2s i = some w) ∧
    (∀ i, i ∉ es.map Prod.snd → lk (es.foldl (fun v e => setBoth v e.1 e.2) v).i2s i = lk v.i2s i) := by
  induction es generalizing v with
  | nil => simp [lk]
  | cons e es ih =>
    obtain ⟨a1, a2⟩ := List.nodup_cons.1 h1
    obtain ⟨b1, b2⟩ := List.nodup_cons.1 h2
    obtain ⟨g1, g2, g3⟩ := ih (setBoth v e.1 e.2) a2 b2
    refine ⟨?_, ?_, ?_⟩
    · intro w
      rw [List.foldl_cons, g1, lk]
      simp only [setBoth, lk_put]
      by_cases hw : e.1 = w
      · subst hw
        have : lk es e.1 = none := lk_none_iff.2 a1
        simp [this]
      · rw [if_neg hw, if_neg (fun h => hw h.symm)]
    · intro i w hm
      rw [List.foldl_cons]
      rcases List.mem_cons.1 hm with he | hm
      · subst he
        rw [g3 i b1]
        simp [setBoth]
      · exact g2 i w hm
    · intro i hi
      rw [List.map_cons, List.mem_cons, not_or] at hi
      rw [List.foldl_cons, g3 i hi.2]
      simp [setBoth, lk_put, hi.1]

/-- **C43.** A vocabulary built from words without blanks, newlines or NULs, printed (in any order of its
entries) and loaded again, answers every query as before. -/
theorem C43_print_load (ws : List Str) (hws : ∀ w ∈ ws, FileWord w) (hsize : ws.length + 3 < 2^31)
    (entries : List (Str × Nat)) (hp : entries.Perm (addAll clear ws).s2i) :
    ∃ v', load (printVocab entries) = .ok v' ∧
      (∀ w, stringToWordIndex v' w = stringToWordIndex (addAll clear ws) w) ∧
      (∀ i, wordIndexToString v' i = wordIndexToString (addAll clear ws) i) ∧
      (∀ w, existSymbol v' w = existSymbol (addAll clear ws) w) ∧
      size v' = size (addAll clear ws) ∧ Consistent v' := by
  have hc : Consistent (addAll clear ws) := consistent_addAll consistent_clear ws
  have hd : Distinct entries := (hp.map Prod.fst).nodup_iff.2 hc.d1
  have hmem : ∀ e ∈ entries, lk (addAll clear ws).s2i e.1 = some e.2 := by
    intro e he; rw [lk_some_iff hc.d1]; exact hp.subset he
  have hsz : ∀ (v : Voc) (ws : List Str), size (addAll v ws) ≤ size v + ws.length := by
    intro v ws
    induction ws generalizing v with
    | nil => exact Nat.le_refl _
    | cons w ws ih =>
      have h1 := ih (addSymbol v w).2
      have h2 : size (addSymbol v w).2 ≤ size v + 1 := by
        unfold addSymbol; split
        · simp
        · simp only [setBoth, size, length_put]; split <;> omega
      have : addAll v (w :: ws) = addAll (addSymbol v w).2 ws := rfl
      rw [this, List.length_cons]; omega
  have hlt : ∀ e ∈ entries, e.2 < size (addAll clear ws) := by
    intro e he
    exact (hc.dense e.2).1 ⟨e.1, (hc.corr _ _).1 (hmem e he)⟩
  have hfw : ∀ e ∈ entries, FileWord e.1 ∧ e.2 < 2^31 := by
    intro e he
    constructor
    · have : existSymbol (addAll clear ws) e.1 = true := by unfold existSymbol; rw [hmem e he]; rfl
      rcases ((C19_vocab ws).2.1 e.1).1 this with h | h | h | h
      · exact hws _ h
      · rw [h]; exact fileWord_reserved.1
      · rw [h]; exact fileWord_reserved.2.1
      · rw [h]; exact fileWord_reserved.2.2
    · have h1 := hlt e he
      have h2 := hsz clear ws
      have h3 : size clear = 3 := by unfold size; rw [clear_s2i]; rfl
      omega
  have hsnd : (entries.map Prod.snd).Nodup := by
    unfold Distinct at hd
    have : entries.Pairwise (fun a b => a.1 ≠ b.1) := by
      rw [List.Nodup, List.pairwise_map] at hd; exact hd
    rw [List.Nodup, List.pairwise_map]
    refine List.Pairwise.imp_of_mem ?_ this
    intro a b ha hb hab he
    have h1 := (hc.corr _ _).1 (hmem a ha)
    have h2 := (hc.corr _ _).1 (hmem b hb)
    rw [he, h2] at h1
    injection h1 with h1; exact hab h1.symm
  obtain ⟨g1, g2, g3⟩ := lk_foldl_setBoth entries clear hd hsnd
  refine ⟨_, load_print entries hfw, ?_⟩
  generalize hv' : entries.foldl (fun v e => setBoth v e.1 e.2) clear = v' at g1 g2 g3 ⊢
  have hs2i : ∀ w, lk v'.s2i w = lk (addAll clear ws).s2i w := by
    intro w
    rw [g1 w, lk_eq_of_perm hp hd]
    cases hg : lk (addAll clear ws).s2i w with
    | some i => rfl
    | none =>
      cases hcl : lk clear.s2i w with
      | none => rfl
      | some i => rw [stable_addAll hcl ws] at hg; cases hg
  have hi2s : ∀ i, lk v'.i2s i = lk (addAll clear ws).i2s i := by
    intro i
    cases hg : lk (addAll clear ws).i2s i with
    | some w =>
      refine g2 i w ?_
      refine hp.symm.subset ?_
      rw [← lk_some_iff hc.d1]
      exact (hc.corr _ _).2 hg
    | none =>
      rw [g3 i]
      · cases hcl : lk clear.i2s i with
        | none => rfl
        | some w =>
          have := (consistent_clear.corr w i).2 hcl
          have := (hc.corr w i).1 (stable_addAll this ws)
          rw [this] at hg; cases hg
      · intro hm
        obtain ⟨e, he, rfl⟩ := List.mem_map.1 hm
        rw [(hc.corr _ _).1 (hmem e he)] at hg; cases hg
  have hd1 : ∀ (es : List (Str × Nat)) (v : Voc), Distinct v.s2i → Distinct v.i2s →
      Distinct (es.foldl (fun v e => setBoth v e.1 e.2) v).s2i ∧
      Distinct (es.foldl (fun v e => setBoth v e.1 e.2) v).i2s := by
    intro es
    induction es with
    | nil => intro v h1 h2; exact ⟨h1, h2⟩
    | cons e es ih => intro v h1 h2; exact ih _ (distinct_put h1 _ _) (distinct_put h2 _ _)
  obtain ⟨k1, k2⟩ := hd1 entries clear consistent_clear.d1 consistent_clear.d2
  rw [hv'] at k1 k2
  have hsize : size v' = size (addAll clear ws) := (perm_of_lk k1 hc.d1 hs2i).length_eq
  refine ⟨?_, ?_, ?_, hsize, ⟨k1, k2, ?_, ?_⟩⟩
  · intro w; unfold stringToWordIndex; rw [hs2i]
  · intro i; unfold wordIndexToString; rw [hi2s]
  · intro w; unfold existSymbol; rw [hs2i]
  · intro w i; rw [hs2i, hi2s]; exact hc.corr w i
  · intro i; rw [hsize, hi2s]; exact hc.dense i

example : FileWord "caf\t\"é".toList := ⟨by decide, by decide⟩

end Thot.Vocab
